# Formal model of gocfl: design

The code in `/repo` (je4/gocfl, Go) is read as text and modelled by hand in Lean 4 under
`lean/Verif/`.  Nothing is extracted automatically: the model is a transcription, function by
function, each definition citing the Go file and lines it follows and saying where it simplifies.

## Conventions

* **Strings.** `Str := List Char`.  Go strings reaching the inventory come out of `encoding/json`,
  which yields valid UTF-8; for valid UTF-8, byte-wise and code-point-wise order, equality, prefix,
  split at an ASCII separator and trimming of ASCII cutsets coincide.  Functions whose result depends
  on bytes (escaping in layout 0003, byte slicing in 0003/0004/0007, byte lengths) are
  modelled over bytes (`List UInt8`) or on hex strings, where byte = char.
* **Maps.** Go maps are association lists (`AMap`).  The list order *is* the iteration order, so a
  theorem for all association lists covers every iteration order of one traversal; where a function
  traverses the same map several times (Go may use different orders each time) an explicit
  permutation-invariance theorem is given.  `Nodup` of keys is a hypothesis/invariant where needed.
* **Errors and panics.** `Except GoErr α`, with `GoErr.error` for a returned Go error and
  `GoErr.panic` for a run-time panic (nil dereference, index out of range, division by zero).
  Nothing is totalised silently.
* **Integers.** Counters (`int`, `uint`) are unbounded `Nat`/`Int`; `strconv.Atoi` therefore has no range error.
  The difference shows only beyond 2^63-1 versions.
* **Hash functions** are arbitrary functions (parameters).  Where collision freedom matters it is an
  explicit hypothesis.  **JSON** encoding of inventories is a pair `enc`/`dec` with the hypothesis `Codec` (what was
  written is read back) where a theorem needs it; `Model/Json` gives the text and the parser of `encoding/json`, and
  `C137_codec` proves the hypothesis for them.
* **File system.** A map from path to bytes; a session is a trace of writes; a crash is an arbitrary prefix of
  the trace, optionally with the last file truncated.
* **Violations.** Where the code violates a property, the negation is proved with a concrete witness
  (`Cxx_full_fails…`), the full statement stays visible as a `def`, and the part that does hold is proved as
  `Cxx_…_partial`.

## Further modelling decisions

* **World.** `World` bundles what an object session takes from outside: JSON decoding and encoding of
  inventories, the digest functions by name, the clock.  `Codec`, `HexHash` and `KeepsId` are the hypotheses on it
  that theorems state when they need them (decoding inverts encoding up to fractions of seconds, digests are
  lower-case hexadecimal without blanks, the id survives).  Concrete worlds that meet them are next to the theorems.
* **Missing files.** `plain` says whether reading a missing file returns `fs.ErrNotExist` itself.  The code
  compares with `==`, so the behaviour on local disks (`*fs.PathError`) is the one with `plain = false`.
* **Unstable sorts.** `slices.SortFunc` with incomplete orders is any permutation that is sorted for the order.
* **Layouts.** Bytes are characters below 256 (`IsBytes`); pairtree and direct-clean work on runes of valid UTF-8.
  Pairtree with length 0 does not terminate in Go and is left out.
* **Concurrency.** Small-step relations over shared states (`DirectCleanConc`, `Stream`); theorems quantify over all
  schedules (`Relation.ReflTransGen`).  Data races are modelled as arbitrary interleavings of the atomic steps, i.e.
  without the further freedom the Go memory model gives to racy programs.
* **Extensions.** Hooks are arbitrary functions or state machines; hook lists of the manager are one list in the
  order the manager uses.  `FollowUp` has the extensions of the repository as instances.
* **Object folders.** Maps from paths to bytes; directories exist as far as files need them, so findings about empty
  directories are outside the model.

## Modules and the code they follow

| Module | Go code |
|---|---|
| `Go/Basic`, `Go/Strings`, `Go/Path` | language and standard library: maps, strings, strconv, fmt, `filepath.Clean/Join` |
| `Spec` | abstract maps used to state properties |
| `Model/Inventory` | `pkg/ocfl/inventorybase.go`: inventory and its operations |
| `Model/Validate` | `pkg/ocfl/inventorybase.go`, `inventorytypes.go`: `Finalize`, `check*`, `EqualState`, `isEqual`, `CheckFiles` |
| `Model/Report` | `pkg/ocfl/validationerror*.go`, `gocfl/cmd/helper.go` (printing of the report) |
| `Model/ContentPath` | `BuildManifestName*`, `NNNN-content-subpath.go` |
| `Model/RootLayouts` | the layouts of a storage root: `extensionFactory.go:Create`, `NNNN-gocfl-extension-manager.go`: `Add`, `Finalize` for layouts |
| `Model/Echo`, `Model/Session` | `pkg/ocfl/objectbase.go`: `StartUpdate` … `EndUpdate`, `AddFile`, `addReader`, `StoreInventory`, `gocfl/cmd/helper.go:addObjectByPath` |
| `Model/FS`, `Model/Load` | write traces, crashes; `LoadInventory` with sidecars |
| `Model/FollowUp` | `EndUpdate` with `NeedNewVersion`/`DoNewVersion` of the manager, filesystem and migration extension |
| `Model/Stream` | pipes and goroutines of `addReader` and `StreamObject` |
| `Model/Extract` | `IterateStateFiles`, `Extract` |
| `Model/Layout`, `LayoutConfig`, `DirectClean`, `DirectCleanConc`, `Manager` | layouts 0002–0007, pairtree, direct path, direct-clean; their configuration files; exclusion and sorting of the extension manager |
| `Model/Names`, `Declaration`, `Enumerate`, `Root` | name cleaning; conformance declarations; enumeration, creation and opening of objects in a storage root |
| `Model/JsonL` | `ReadJsonL`/`WriteJsonL` |
| `Model/ObjCheck` | `ObjectBase.Check`, `checkFilesAndVersions`, `checkVersionFolder`, `createContentManifest` |
| `Model/ContentChain` | content paths and logical paths with the shipped object configurations |
| `Model/SpecVersion` | which version of the specification objects and inventories are made for |
| `Model/StringKeys` | the conversion of YAML and TOML documents for JSON |
| `Model/MetaSchema` | setting up the metafile extension |
| `Model/Fullpath` | paths on the command line |
| `Model/Conversions` | pkg/subsystem/migration, pkg/subsystem/thumbnail: configured programs, their choice and their command lines (shlex and regexp are abstract) |
| `Model/Decrypt` | decrypt/main.go: the decryption tool (tink, KeePass and JSON are abstract) |
| `Model/Readme` | pkg/extension/NNNN-content-subpath.go:145-163: the description of the folders (the markdown library is abstract) |
| `Model/Detail` | the page of the web display about a file |
| `Model/MetaJson` | the document `extractmeta` writes |
| `Model/OneObject` | `validate`, `extractmeta` and `extract` for one object |
| `Model/Create` | the command `create`; what `create`, `add` and `update` take from the settings |
| `Model/Stat` | the command `stat`: what is printed about storage root and objects |
| `Model/Settings` | settings: command line, configuration file, parameters of extensions, how storage roots are opened |
| `Model/JsonLemmas, Model/JsonRound` | reading back what was written; parts of a text |
| `Model/Json` | inventory files: the text `encoding/json` writes and reads |
| `Model/Reader` | loading and extracting while the object changes |
| `Model/Concurrent` | commands as programs of single steps, several at the same time |
| `Model/RootInit` | creating and opening a storage root: declaration, documents, configurations, interruption |
| `Go/Url` | net/url: escaping of paths |
| `Model/DisplayReport` | tree, numbers and metadata of the report |
| `Model/DisplayLink` | links of the web display |
| `Model/Display` | the handlers of the web display, with requests at the same time |
| `Model/Mets` | METS and PREMIS documents (pkg/extension/NNNN-mets.go) |
| `Model/CmdLine` | arguments of `add` and `update` naming folders; how the commands end |
| `Model/Filesystem` | pkg/extension/NNNN-filesystem.go (records, placeholders for folders, report), the record buffers of NNNN-indexer.go, AddFolder |
| `Model/MetaFile` | the metafile extension: reading, validating, storing and reporting a metadata document |
| `Model/Thumbnail` | the thumbnail extension: names, streaming, records, reading, sizes (NNNN-thumbnail.go, NNNN-thumbnail_native.go) |
| `Props/ExtLoad` | C96, C97 |
| `Model/ExtLoad` | loading and storing of extensions |
| `Props/Cmd` | C94, C95 |
| `Props/RoundTrip` | C113 |
| `Props/CmdLine` | C114, C115 |
| `Props/Mets` | C118, lemmas of C116–C120 |
| `Props/MetsDocs` | C117, C119, C120 |
| `Props/MetsEx` | examples and refutations of C117–C120 |
| `Props/MetsStore` | C116, C117 of the version stored |
| `Props/Fixity` | C121; invariants of all steps of a session |
| `Props/Retry` | C122 |
| `Props/MetsPrimary` | C123 |
| `Props/Display` | C124–C126 |
| `Props/DisplayExt` | C127 |
| `Props/DisplayLink` | C128 |
| `Props/DisplayReport` | C129 |
| `Props/RootInit` | C132, C133 |
| `Props/Concurrent` | C134, C135 |
| `Props/Reader` | C136 |
| `Props/Json` | C137, C138, C139 |
| `Props/Settings` | C140, C141, C142, C143, C144, C145 |
| `Props/Stat` | C147–C150 |
| `Props/Create` | C151–C154 |
| `Props/OneObject` | C155, C156, C157 |
| `Props/MetaJson` | C158, C159 |
| `Props/Detail` | C160 |
| `Props/Replace` | C161 |
| `Props/Archive` | C162 (and the failure of C161) |
| `Props/Mirror` | C163 |
| `Props/Repeat` | C164 |
| `Props/Rounds` | C165 |
| `Props/Readme` | C166 |
| `Props/Decrypt` | C167 |
| `Props/Conversions` | C168, C169 |
| `Props/NoCrash` | C170 |
| `Props/Automated` | C171 |
| `Props/Fullpath` | C146, C172 |
| `Props/MetaSchema` | C173 |
| `Props/LayoutApart` | C174 |
| `Props/ObjectNames` | C195 |
| `Props/Loss` | C196 |
| `Props/ArchiveValid` | C197 |
| `Props/ArchiveLoss` | C198 |
| `Props/ArchiveDamage` | C199 |
| `Props/ArchiveAdded` | C200 |
| `Props/LayoutText` | C194 |
| `Props/SpecVersion` | C193 |
| `Props/DiskArchive` | C191 |
| `Props/StringKeys` | C192 |
| `Props/AddedFile` | C190 |
| `Props/Damage` | C189 |
| `Props/ExtractAccepted` | C188 |
| `Props/DigestCase` | C187 |
| `Props/ForeignUpdate` | C186 |
| `Props/LayoutCrash` | C185 |
| `Props/AcceptedObject` | C184 |
| `Props/AcceptedInventory` | C183 |
| `Props/AcceptedNames` | C182 |
| `Props/DefaultConfig` | C181 |
| `Props/Processes` | C180 |
| `Props/MgrConfig` | C179 |
| `Props/Asked` | C177, C178 |
| `Props/Dedup` | C176 |
| `Props/Alike`, `Props/ArchiveAuto` | C175 |
| `Props/DisplayNumbers` | C130, C131 |
| `Props/Filesystem`, `Props/FilesystemRead` | C106–C108 |
| `Model/Cmd` | the commands add and update on a storage root |
| `Props/DirectCleanChars` | C92, C93 |
| `Props/MigrationOnce` | C90, C91 |
| `Props/Migration` | C89 |
| `Model/Migration` | pkg/extension/NNNN-migration.go (collecting, migrating, records), pkg/subsystem/migration helper and function |
| `Model/Metadata` | metadata of objects and storage roots, indexer metadata, extraction of whole storage roots |
| `Model/RootCheck` | `LoadStorageRoot`, `StorageRootBase.Load`, `Check`, `CheckDirectory`, `CheckObjects`, version comparison of `LoadObjectByFolder`; validation of a whole root |
| `Model/*Lemmas`, `VersionNames` | auxiliary facts, no model of code |
| `Props/*` | the theorems `Cxx_…` with their examples and counterexamples |

## Trusted base

* Lean 4.33.0 kernel.  `AXIOMS.txt` lists the axioms of every property theorem (written by `tools/axioms.py`):
  at most `propext`, `Classical.choice`, `Quot.sound`.
* Faithfulness of the hand-written model to the cited Go lines, and the modelling conventions above.
* Go standard library behaviour as transcribed in `Verif/Go/*` (strings, strconv, sort, path/filepath on Unix,
  fmt verbs `%d %0nd %x %U`, net/url path escaping, regexp matches for the fixed expressions used), and in `Model/Json`
  (`encoding/json` as far as inventories need it: writing with `MarshalIndent`, scanning, unescaping, field names).
* Not modelled: logging, contexts; the programs behind indexer, thumbnails and migration (ImageMagick, ffmpeg,
  siegfried), which appear as arbitrary functions; S3, ZIP and encryption file systems (package
  `github.com/je4/filesystem`; only which of them a command opens is modelled); the parsing of command lines; the JSON syntax of files other than inventories, TOML and XML syntax; the EAD documents.
* Modelled in part: the commands (`add`, `update`, their arguments and exit), metadata (`GetMetadata` of object and
  storage root), METS and PREMIS (what the documents say, not their syntax), thumbnails (names and records, not images), the web display (which object,
  files and bytes an answer contains; not templates, routing and HTTP).

## How theorems are tested

`tools/mutate.py` applies the wrong programs of `seeded/mutants.jsonl` to a scratch copy, rebuilds and writes one line per
attempt to `seeded/LOG.jsonl`.

## Results per property

(table written by `tools/design.py`)

<!-- table begin -->
| Property | Title | Status | Result |
|---|---|---|---|
| C01 | Sealed versions are immutable | proved | For every history of operations: every version other than the head keeps its metadata and its state, and versions opened before are never altered again. |
| C02 | A new version starts as an exact copy | proved | Opening a version yields the next number and an exact copy of the previous head state. |
| C03 | Version numbers are contiguous and head is the last | proved | Versions stay numbered 1..n with head n along every history, also from a fresh object. |
| C04 | Version names round-trip | proved | Version names parse back to their number for all numbers and paddings; different numbers have different names. |
| C05 | Zero-padding width is kept | partial | The full statement (padding width kept for ever) is false: the name grows when the number no longer fits. Proved: exact characterisation of when the width is kept, and the negation of the full statement. |
| C06 | Duplicate detection is exact | partial | The full statement is false (deleted paths answer yes, padded version names give an error); both failures proved in general. Proved: exact meaning of the answer for unpadded objects, and the property for paths in the head or never recorded. |
| C07 | Update detection is exact | partial | As C06: a deleted path is reported as an update. Proved for paths in the head or never recorded; negation of the full statement proved. |
| C08 | Recording an added file sets exactly that path | partial | Fails exactly when a deleted path is added again with the digest it last had: the call succeeds but the path is not recorded (proved in general). Proved in all other cases, for any number of names. |
| C09 | One digest per logical path | partial | The full statement is false: re-adding a path with known content copies the digest reference without removing the old one (proved). Proved: uniqueness is kept by every history in which copies and renames target unoccupied paths (in particular with no copies). |
| C10 | No dangling digests | proved | Along every history every digest a version refers to names content in the manifest; the hypothesis that content paths are not empty is discharged by C13_content_path_ne_nil. |
| C11 | No unreferenced manifest digests | proved | Along every history every manifest digest is referenced by some version state (as OCFL E107 demands, by digest). A digest can be left without any logical path after a delete; shown separately. |
| C12 | The manifest only grows | proved | Along every history, every content path listed for a digest stays listed. |
| C13 | New content lands inside the current version | partial | The full statement is false: a name ../../q gets exactly the content path q (proved for every q). Proved for every name that does not climb above its start directory, with the exact path for clean names and disjointness between versions. |
| C14 | Delete removes exactly one path | proved | Delete removes exactly the given path from the head and nothing else. |
| C15 | Rename moves exactly one path | partial | False when the target is occupied (proved). Exact effect proved for all cases, the property for free targets. |
| C16 | Virtual copy sets exactly one path | partial | False when the target is occupied with another digest (proved). Exact effect proved, refusal of unknown digests, the property for free targets. |
| C17 | Mirror update deletes exactly the vanished files | partial | False because the area folder is matched as a string prefix (proved in general). Exact effect of the mirror deletion proved for every area, the property for whole objects and for areas without prefix-sharing siblings. |
| C18 | A deletion-only mirror update is recorded | partial | False in general: with duplicate check re-submitting unchanged files leaves the modified flag unset, so EndUpdate skips mirroring and nothing is written (C18_full_fails, and in general C18_full_fails_checked). Proved: when the session is modified, the stored head lacks every vanished file of the mirrored area. |
| C19 | Changes are never lost by the modified flag | partial | False: re-adding a file the head already has under a new content path changes the manifest without setting the flag (proved in general). Proved: an unflagged operation never changes fixity or any version's logical content, and can change the manifest only in that case. |
| C20 | Version listing is complete and ordered | proved | Version listing is the versions in numeric order, independent of map order. |
| C21 | Crash before the root inventory is replaced is harmless | partial | Proved for every crash point and session whose names map into the content directory. The full statement is false: a name with '..' overwrites a file of an earlier version (proved). |
| C22 | Every crash point leaves a loadable object | partial | False for every session that changes something: a crash after the root inventory was opened for writing leaves an unloadable object (proved in general). Proved: at every crash point the object loads exactly as before, or the root inventory is a proper initial part of the new one, or the new one loads. |
| C23 | A half-written inventory is never accepted silently | partial | Proved: loading reports E058/E061/E060 exactly if the sidecar is missing, malformed or names another digest; without these findings inventory and sidecar agree. The inventory is nevertheless accepted (negation of the full statement proved). |
| C24 | Stored inventories load back | partial | Proved for all sessions: root and head inventory are the same bytes and match their sidecars; loading gives back the inventory up to fractions of seconds, if no path is empty and names fit the padding. The full statement is false: fractions of seconds are lost, and with an empty logical path the stored object cannot be loaded (both proved). |
| C25 | Stored content matches its digest | partial | False when one session adds the same content path twice with different content (second overwrites first; C25_full_fails). Proved for every session: if old content is not rewritten and each listed path is written at most once, all manifest entries exist and match; and in terms of names: distinct content paths suffice (no follow-up versions). |
| C26 | A no-change update writes nothing | partial | False without duplicate check (an orphan content file is written; C26_full_fails, in general C26_full_fails_unchecked). Proved with duplicate check for all sessions of unchanged files. |
| C27 | Extraction yields verified content only | partial | Every byte written matches the recorded digest (C27_verified_content), and each extracted name holds the content of its path when extraction names are distinct; full claim false: content-subpath strips prefixes so two paths can share a name and the last one wins (C27_full_fails). |
| C28 | Extraction is complete | partial | Nothing else is written, and the extraction is complete for paths before which no path of the same digest lies outside the area; full claim false: a path outside the area ends the loop over the names of its digest silently (C28_full_fails). |
| C29 | Old versions extract identically forever | partial | Proved over all histories of completed and crashed sessions whose names contain no escaping '..' (SafeNames) and versions whose extraction names are distinct; full claim false: a '..' name destroys old content (C29_full_fails). |
| C30 | Extraction manifest is exact | partial | Lines of the manifest are exactly the extracted (digest, name) pairs and can be read back if no name contains a newline; full claim false: a file named like the manifest is overwritten by it (C30_full_fails), names with newlines are ambiguous. |
| C31 | Version selector | proved | Both selectors mean the head, every other selector names the version or is an error. |
| C32 | Content-subpath mapping round-trips | partial | False for area paths that are not clean, such as ./data (proved). Proved for every configuration with clean area paths, every area and every clean file path. |
| C33 | Areas are isolated | partial | False if the folder name of one area is a string prefix of another's (proved in general). Exact condition for extraction proved; isolation proved when folders neither nest nor share a string prefix. |
| C34 | Version sequence validation is exact | proved | For every inventory whose version names are v, zeros, number: the version-sequence error is reported iff the numbers are not 1..n, each once. |
| C35 | Head validation is exact | proved | For every inventory whose version names have a uniform padding and whose head was decoded: the head error is reported iff head is not the highest version. |
| C36 | Digest reference validation is exact | proved | Both directions: missing-digest error iff a version (with a numeric name) refers to a digest absent from the manifest; unreferenced error iff a manifest digest is used by no version. |
| C37 | Logical path conflicts are detected | partial | Soundness for all inventories whose paths do not end in '/', and completeness when no path sorts between the two conflicting paths; the full claim is refuted: a path such as 'a-b' between 'a' and 'a/c' hides the conflict. |
| C38 | Content path conflicts are detected | partial | Every report is a real conflict; the full claim is refuted: the prefix comparison is the wrong way round for sorted paths, so no conflict is ever reported. |
| C39 | Accepted paths are safe | partial | Exact characterisation of when path errors are reported; the full claim is refuted: states of versions whose name is not v<number> are skipped. |
| C40 | Validation never crashes | partial | Exact characterisation of crashes and absence of crashes otherwise; the full claim is refuted: null head, null version, missing created and empty paths crash. |
| C41 | Content fixity check is exact | partial | Exact for objects with at least one content file; the full claim is refuted for objects without content files. |
| C42 | Version state comparison | partial | Equality decided exactly on the compared data; the full claim is refuted: digests are never compared. |
| C43 | Inventory comparison | partial | Equality implies agreement on everything compared; the full claim is refuted: extra manifest entries go unnoticed. |
| C44 | Validation is deterministic | partial | Same codes and same findings (up to which of several case-variant fixity digests is named) for every pair of map orders when version names are uniformly padded; crash behaviour order independent for all inventories; the full claim is refuted by versions {v1, v02}. |
| C45 | No finding is lost when the report is compacted | proved | For every outcome of sorting. |
| C46 | Every error code resolves | partial | Complete description of the lookup for all strings, never nil; full claim false: E107, E103 and others are reported for 1.0 objects but unknown there (E000). |
| C47 | 0003 layout is collision-free | partial | Clean, bounded paths for all ids; distinct paths for ids without bytes below 16. Full claim false: escape writes such bytes with one digit (C47_full_fails). |
| C48 | 0004 layout is collision-free | partial | Proved for configurations without negative numbers. Full claim false: negative numbers are accepted and crash or collide (C48_full_fails, C48_full_fails_collision). |
| C49 | 0006 layout omits exactly the prefix | partial | The result is exactly the part after the last delimiter; not empty unless the id ends with the delimiter. Full claim false: C49_full_fails, C49_empty_delimiter. |
| C50 | 0007 layout is total and collision-free | partial | Proved for positive tuple size, non-negative number and padding left/right. Full claim false: other configurations are accepted and crash (C50_full_fails, C50_full_fails_padding). |
| C51 | Pairtree encoding is reversible | partial | Proved for ids of U+0010-U+00FF without comma and positive lengths. Full claim false: full stop and comma collide, codes have no fixed width (C51_full_fails, C51_full_fails_width). |
| C52 | Direct-clean UTF encoding is injective | partial | Same result only for the same non-empty segments; injective on clean paths. Full claim false: empty segments are dropped (C52_full_fails). |
| C53 | Direct-clean results are safe | partial | Total length always bounded; clean results with UTF encoding, without it for sensible replacement strings, and in the fallback for a clean folder. Full claim false: '...' becomes '..' with the default replacement (C53_full_fails), empty results, crash of the fallback. |
| C54 | Layout configuration survives a restart | partial | Holds for the flat layouts and direct-clean. Full claim false: WriteConfig of the other layouts drops all parameters (C54_full_fails, C54_lost). |
| C55 | Exclusion keeps exactly the best alternative | partial | At most one entry of every group remains, nothing is invented and entries not named in any group all stay, for all configurations and sort outcomes; for groups without common or repeated names exactly the present entry listed first remains. With overlapping groups a whole group can vanish, and with a repeated name the wrong entry is kept (both proved). |
| C56 | Sort order is honoured | partial | For every outcome of the unstable sort nothing is lost or duplicated and named entries come in the listed order. Entries that are not named are not put at the end as documented but in front of all named entries except the first (proved). |
| C57 | Object ids never share a folder silently | partial | Creating in an occupied folder is refused and writes nothing (all roots). Opening by id returns that id for layouts keeping the folders of the ids in use apart and file systems reporting missing inventories. Full claim fails: layout 0006 maps info:a and urn:a to one folder; a missing inventory is replaced by one without id. |
| C58 | Every object is enumerated exactly once | partial | Proved for all trees: no folder is listed twice. Exact listing proved for hierarchies without stray files whose objects hold no earlier-sorting entry. Full claim fails: a stray file hides objects; a folder sorting before the declaration is listed as an object. |
| C59 | Conformance declaration is recognised exactly | partial | Own declarations are recognised and everything recognised carries a matching declaration text. Full claim fails: the name pattern is unanchored, so backup files such as old-0=ocfl_1.0.bak count and a second one blocks opening; a declaration with CRLF is not accepted. |
| C60 | Concurrent path building is safe | partial | For every interleaving: mutual exclusion, short paths are right, other results come from the digest of one call's name or of nothing; right if no call enters before the digest is taken. Full claim fails: Sum is taken after Unlock, two calls can return the same path. |
| C61 | Extension metadata files are found again | partial | Where writing and reading go is proved exactly for all extensions and settings (C61_exact_partial); found again for storage type extension, without content-subpath, and for named areas of a clean content-subpath, also after every later history with safe names. Full claim false: storage type path with a default area folder (folder applied twice, in general C61_full_fails_path), storage types with upper-case letters (C61_full_fails_case). |
| C62 | Follow-up versions terminate | partial | Proved for the extensions of the repository (any number of filesystem and migration extensions, whatever they find and do): EndUpdate returns after at most one follow-up version in total; for extensions asking a bounded number of times, at most that many. Full claim false for an extension that always asks (never returns, C62_full_fails_forever). |
| C63 | Ingest streaming never blocks | partial | Proved over all schedules, contents, numbers of extensions and buffer sizes: if extensions do not close the reader they are handed and stop reading at the end of the stream, no execution is infinite, no reachable state is stuck before everything has ended, every pipe delivers the whole content, and addReader fails exactly if an extension fails. The full claim is false: an extension that closes its reader makes the manager return early and addReader block forever (C63_full_fails_close). |
| C64 | Portable file names | partial | Cleaned names contain none of the characters the pattern really covers and no leading blanks or dashes. Full claim fails: the backslash is missing from the pattern and -.. is cleaned to two dots. |
| C65 | Submitted files survive area mirroring | partial | False when areas are ended separately: EndArea clears the list of submitted files, the final mirror deletion then removes them (C65_full_fails, in general C65_full_fails_area). Proved for sessions without area changes. |
| C66 | Extraction does not depend on map order | proved | For all iteration orders of the maps. |
| C67 | The printed verdict is right | proved | For every outcome of sorting; findings with a code, which record_code shows for all recorded ones. |
| C68 | Each finding is reported once | partial | Proved for reports sorted by insertion sort (up to 12) and for sorted reports of one kind of any length, if the concatenated sort keys do not collide; full claim false for colliding keys (C68_full_fails). |
| C69 | Findings refer to the specification version of the object | partial | Full claim false for every recorded finding: the version is dropped by AppendDescription and AppendContext (C69_full_fails_recorded). |
| C70 | Storage paths stay inside the storage root | partial | Proved for 0003, 0004 (no short root, no negative numbers), pairtree and direct-clean with UTF encoding. Full claim false: C70_full_fails, C70_full_fails_prefix. |
| C71 | The announced layout is the layout in use | partial | Proved for the catalogue layouts. Full claim false for direct-clean, direct path and pairtree (C71_full_fails). |
| C72 | A created object is found again under its id | partial | Proved if no layout extension reports an error for the id. Full claim fails: CreateObject ignores the layout's error, LoadObjectByID does not. |
| C73 | Opening never invents an inventory | partial | Proved where reading a missing file returns fs.ErrNotExist itself. Full claim fails elsewhere (local disks): an empty inventory is made up. |
| C74 | Objects are never nested | partial | The folder is new and contains no object (all roots); not inside another object with layouts keeping folders apart. Full claim fails: id a/b with the flat layout is created inside object a. |
| C75 | Accepted objects hold exactly their content | proved | C75_accepted_content |
| C76 | Validation of objects always reaches a verdict | partial | violated; C76_completes_iff says exactly when validation of a loadable object ends; C76_full_fails_folder/_content/_inventory show classes of objects where it panics or aborts |
| C77 | Inventories of an accepted object agree | partial | violated: digests of version states are not compared (C77_full_fails); for the head version the manifest is shown to be contained in the root manifest, not the converse (C43); everything else in the statement is proved |
| C78 | Tampering with content is noticed | proved | C78_root_determines_content, C78_tampering_detected; up to collisions on the files concerned |
| C79 | Valid objects validate without error | partial | Exactly when it holds is proved (C79_accepted_iff, local disks): a valid object is accepted iff it uses SHA-512, every version has an inventory and content of its own, and the name of the content directory is no beginning of inventory.json.sha512. The full statement is refuted for each of the others in general (C79_full_fails_sha256, C79_full_fails_content_name). |
| C80 | Objects written by the tool validate | partial | C80_session_valid: a completed session on an intact object leaves a valid object with one version more, and what is read back from it is intact again; C80_life_valid: so does every sequence of sessions from creation on. C80_life_accepted_iff: on local disks validation accepts it exactly if the object has SHA-512, the content directory is no beginning of inventory.json.sha512, and every version brought new content. Violated: C80_full_fails_rename (a session that only renames a file leaves an object whose validation stops with an error on a local disk). Assumed of sessions (CleanSession): names with content paths of their own, safe logical paths without conflicts, no follow-up versions by extensions. |
| C81 | An accepted storage root has only accepted objects | proved | C81_accepted_root for every tree; C81_every_object without nesting; C81_accepted_iff_partial adds the converse for storage hierarchies as the standard describes them. |
| C82 | One damaged object does not keep validation from reporting the others | partial | Violated (C82_full_fails): an object whose check aborts, e.g. a version without content on a local disk, ends validation of the root before the status is shown, and a wrong root declaration keeps every object from being validated. C82_completes_iff gives the exact condition; C82_all_reported_partial: where it ends, everything is reported. |
| C83 | The metadata of an object agrees with its inventory | partial | C83_metadata_exact_partial (all but checksums), C83_checksums_partial (checksums of the first content path), C83_life_exact (every object the tool wrote). Violated for checksums of further content paths: C83_full_fails. |
| C84 | The metadata of a storage root covers every object | partial | C84_root_metadata_partial (distinct identifiers), C84_completes_iff (exactly when there is a result). Violated for two objects with one identifier: C84_full_fails. |
| C85 | Extraction of a whole storage root extracts each object | partial | C85_root_extraction_partial (the default area is what is extracted). Violated for other areas, which are ignored: C85_full_fails_area, C85_full_fails. |
| C86 | Technical metadata stays readable | partial | C86_completes_iff, C86_reported_exact, C86_stays_readable_partial (index files in the content, one for each new version). Violated by a session that stores no content: C86_full_fails; one such object makes the metadata of the whole root unavailable: C86_breaks_root. |
| C87 | Versions without changes are not stored | partial | Clean itself is exact: after NewVersion on an unmodified object with versions it gives back the inventory (C87_clean_undoes); the first version stays, or with padded names is an error (C87_clean_first). Sessions never use it: a successful modified session always leaves one version plus one per automatic version (C87_versions_counted_partial), so an automatic version nothing is done in is stored with the files of the one before (C87_unused_version_stored, C87_full_fails). |
| C88 | The manifest lists each content path once | partial | A session adds to the listed content paths a sub-list of those its calls build, once per name given (C88_session_adds; C88_add_exact for one operation). Hence listed once, for every session, failed or not and with automatic versions, in which no call names two files for one content (C88_listed_once_partial). AddReader with k names lists the path k times (C88_names_counted, C88_full_fails). |
| C89 | Migration keeps every file | partial | Exact effect proved when no result takes the name of another file; the command is given the content of the file that is recorded as migrated (C89_source). Violated: a result whose name is taken replaces that file (C89_full_fails_clash), strategy add with an unchanged name overwrites the original (C89_full_fails_same_name), and strategy folder on a file that was itself the result of a migration leaves it under the empty name (C89_full_fails_again). |
| C90 | A file that is gone does not stop the migration | partial | Proved: exactly which contents are picked (C90_collect_exact: every content in the manifest, whether any version still has it or not), and that migrating contents of the version before never fails an unpadded object whatever the commands do. Violated: every picked content that is not in the version before makes the update fail or panic (C90_full_fails_absent, C90_full_fails). |
| C91 | A file is migrated once | partial | Proved: every line written can be read back, and all originals are named if lines with the same result have the same original. Violated: records are kept by the digest of the result, so of two originals with identical results only one is named (C91_full_fails_forgotten, C91_full_fails); the other is picked again, and with strategy replace the next update then panics. |
| C92 | Direct-clean removes the characters it says it removes | proved | With and without fallback; the ends of names for results without fallback. |
| C93 | The direct-clean fallback is the documented one | partial | Proved for names that are too long and sub folders of one character (or at most one sub folder). Violated: sub folders of more characters overlap (C93_full_fails), and for a path that is too long as a whole the digest is that of the cleaned path (C93_full_fails_cleaned). |
| C94 | add never changes a file that is already there | proved | Directories are implicit in the model; an empty directory counts as absent. The error of fs.Sub/ReadDir for a missing folder is taken to be fs.ErrNotExist. |
| C95 | update changes the object with that id | partial | Violated (C95_full_fails): with layout 0006 the ids a and x:a share a folder, update of x:a, which was never added, writes a new version of the object a. Holds for layouts that keep the ids in use apart, with missing inventories reported (C95_update_own_partial). |
| C96 | Extensions survive a restart | partial | Violated: Initial.SetExtension sets ExtensionName instead of Extension; with the configurations in data/scicoreextensions and data/nomigrationextensions the stored initial/config.json is loaded as a second manager without rules, which wins (C96_full_fails), and the folder of an object changes (C96_full_fails_layout). A manager without rules is not stored and loading fails (C96_full_fails_empty). Holds if every folder carries the name of its extension and the manager has rules (C96_rules_partial), or there is no initial (C96_plain_partial). |
| C97 | An unknown extension does not stop the tool | partial | Violated when a storage root is opened: validation is nil there, the warning is a method call on nil, it panics (C97_full_fails). Holds for objects, where there is somebody to report to (C97_ignored_partial). |
| C98 | A thumbnail never replaces another | partial | Violated by the code: with singleDirectory false (the default) a random number below 16 has one hexadecimal digit and []rune(cs)[1] panics, on average for every fourth thumbnail (C98_full_fails, exact in C98_name_panics_iff). Proved for all sessions and all random numbers: each record names a file of its own with a thumbnail of that file; names of different versions differ; no panic with one folder or numbers from 16. Only storage type extension. |
| C99 | A thumbnail reported is there | partial | Violated by the code: in an area the area's folder appears twice in the name reported (C99_full_fails); a file whose command failed is reported with a thumbnail data/x/y/digest.png that does not exist (C99_full_fails_failed); with digests in upper case (inventory of another program) GetMetadata of the object fails for ever after (C99_full_fails_case). Proved for storage type extension, lower-case digests, after any session: everything is read, each thumbnail is found under the name reported, no file with a record is handled again. |
| C100 | A thumbnail stored is recorded | partial | Violated by the code: the thumbnail is remembered under <version>/content/<logical path>, so with another contentDirectory it is stored, never recorded, and a second one is made (C100_full_fails). Proved: recorded, and nothing else made, whenever that name is a content path of the file. |
| C101 | Thumbnails fit the configured size | partial | Violated by the code: the proportions are compared as whole numbers; 300x200 with 256x256 configured gives 384x256 (C101_full_fails). C101_fits_iff: it fits unless the picture is wider in proportion although the whole numbers are equal; C101_fits_partial: pictures not wider in proportion fit. |
| C102 | Metadata given with an update is reported | partial | violated: storage type path with content-subpath (C102_full_fails), storage types with upper case letters (C102_full_fails_case), valid metadata that is no JSON object (C102_full_fails_object); proved for the settings of MetaFindable, for the same process, and for later histories while no newer version has a file at the place |
| C103 | The first version needs metadata | partial | violated both ways: without parameter every update panics (nil dereference), with the empty parameter the commands always pass the first version is created without metadata (C103_full_fails, C103_full_fails_panic, C103_full_fails_any); exact condition proved |
| C104 | Only valid metadata is stored, once | proved |  |
| C105 | Every object gets its own metadata | partial | violated: a file name that begins with the identifier loses leading slashes (C105_full_fails); the second object created with the same extension manager gets nothing and reports the metadata of the first (C105_full_fails_shared); proved for addresses and for names with something before the identifier |
| C106 | Folders are kept | partial | violated: with --echo all placeholders vanish from the version as soon as the object already contains an empty file (C106_full_fails_echo, general); proved without echo |
| C107 | File system attributes are reported for the files they belong to | partial | first half proved; second half violated: with deduplication nothing is recorded for a file whose content is known (C107_full_fails_known, general), and the first folder of an object is recorded under its path in the source (C107_full_fails_folder); proved for all files without deduplication, for the process itself and, with the settings of C61, for every later process that reads the object |
| C108 | Recording does not make an update fail | partial | violated, and decided exactly: it holds iff no version without records follows one with records (C108_completes_iff); fails for the automatic version whose conversions all fail (C108_full_fails_conversions) |
| C109 | Updates without new content succeed | partial | violated by every update that streams no content (C109_full_fails_no_content, general); exact condition in C109_completes_iff |
| C110 | Findings say what was found, and where | partial | violated for folders with quotes: two objects can have the same context (C110_full_fails); text proved in full, difference of objects for folders without quotes |
| C111 | The direct-clean configuration means what is documented | partial | violated: the documented switch encodeUTF has no effect (C111_full_fails_switch, general), the documented defaults of the replacement strings do not apply (C111_full_fails_default); proved for files that give the strings; old keys proved in full |
| C112 | Layout configurations of the OCFL catalogue are understood | partial | violated: no defaults — the hashed layouts cannot be loaded without digestAlgorithm (C112_full_fails_hashed), 0007 without tupleSize crashes on every id (C112_full_fails_tuples); proved for files that give every parameter |
| C113 | What was put in comes out again | partial | Proved for folders with at least one file whose content paths differ, whose logical paths are new, differ and are no folders of each other, and contents without digest collisions among themselves and the stored ones; sessions without acting extensions. Fails for an empty folder: add reports success, the object cannot be opened. |
| C114 | Every folder named on the command line is taken in | partial | Proved, under the hypotheses of C113: what comes out is exactly the source folder and, for each area, the folder of the last argument of the form [a-z]{2,}:path for it (C114_add_partial, C114_update_partial), hence everything named if all arguments have that form and name different areas (C114_add_named_partial; areaArg_iff characterises the regular expression). Violated: two folders for one area - only the last one is added (C114_full_fails_twice); an area name with other characters (Metadata:x) - the folder is skipped and the command succeeds (C114_full_fails_form). |
| C115 | Exit status and closing line can be trusted | partial | Proved: exit status of update exact (C115_update) and of add exact (C115_add_exact; C115_add up to ids that exist already); closing line of validate (C115_validate_root, C115_validate_tampered) and message of extract (C115_extract). Violated: add of an existing id ends with 0 (C115_full_fails_add), a failed update prints `no errors found` before it fails (C115_full_fails_update), validate ends with 0 for a root that is not valid, even without showing any finding (C115_full_fails_validate), extract ends with 0 if it fails (C115_full_fails_extract). |
| C116 | A version is stored together with its METS and PREMIS documents | partial | Proved for storage types area and path, content paths version/content/..., and names of documents and schemas that differ and are in the version or in none. Full statement refuted: with another content directory the function returns nil (errors.Wrapf of a nil error) and no document is written; with storage type extension the METS bytes are written under the PREMIS name. |
| C117 | The METS document lists exactly the files of the version | partial | Soundness with respect to the version described is unconditional; completeness is proved where the primary metadata has a content of its own and contents are stored in the area of their files; also for the version as stored, documents and schemas aside. Files are listed in the group of their area, in the group of contents if they lie in no folder, else in the group of their folder (C117_grouped, C117_grouped_rest). Refuted in full: other files with the content of the primary metadata are dropped; a content of a metadata file that was stored as another file is not located; with storage type path the documents of the previous version are listed with digests the stored version does not have. |
| C118 | Identifiers of the METS document are unique and its pointers resolve | partial | Proved where contents are stored in the area of their files, at most once as metadata, all areas are known beforehand and the primary metadata is set. Refuted in full by four objects: two top folders that are no areas (both groups have the identifier uuid-), a content shared between a metadata and another file (dangling pointer), metadata stored twice (identifier twice), no primary metadata (sections unreached). |
| C119 | The PREMIS document describes the files and their history | partial | Objects and migration events are proved unconditionally; links, packings and fixity exactly as far as they go: a link is described iff its file is not metadata, packings are those of versions with the content under any name, a fixity is given iff the indexer knows the content. Refuted in full for each of these three. |
| C120 | Checksums in the METS document are said to be of the right algorithm | partial | Proved for the descriptive sections always and for files exactly if the object uses sha512 (the type is hard-coded). Refuted for every document: the type of the PREMIS document's checksum is empty, as checksumTypeToMets does not know SHA-512. |
| C121 | Fixity values are recorded for every content file | proved |  |
| C122 | A failed add can be repeated | partial | Violated: as soon as an add of a free id wrote anything (always the declaration file first), every later add does nothing and reports no error (C122_blocked, for every interruption; C122_failed_blocked), while opening and updating the object fail for ever (C122_failed_stuck). Concrete: --fixity with an algorithm that is not allowed (C122_full_fails). Holds for an add that was refused before writing (C122_refused_partial). |
| C123 | The primary descriptive metadata is described as such | partial | Violated where another file has the same content: the first name of the content is described (C123_full_fails). Proved: exactly the sections with the file's digest carry the type (C123_typed), and the full statement where no other file shares the content (C123_described_partial). |
| C124 | A download is the file that was asked for | partial | Violated by requests handled at the same time: bytes of another object are sent (C124_full_fails). Proved for requests handled one after the other, with objects growing in between (C124_download_partial, C124_digest). |
| C125 | What the web display keeps makes no difference | partial | Violated when an object changes: the old version is shown until another object is asked for (C125_full_fails). Proved while the files do not change (C125_kept_partial). |
| C126 | The pages of a version and of the manifest list exactly the files | partial | Violated by requests handled at the same time: the id of one object with the files of another (C126_full_fails). Proved for requests handled one after the other (C126_version_partial, C126_manifest_partial). |
| C127 | Only files of the extension are given out | partial | Violated by .. as name of the extension: any file of the object is given out (C127_full_fails). Proved for ordinary extension names and paths that do not climb above their start, in any interleaving (C127_extension_partial), with the right object one after the other (C127_sequential_partial). |
| C128 | Links of the web display lead to their objects | partial | Violated by ids with %: they are unescaped twice, and the link to a%2Fb shows a/b (C128_full_fails, C128_full_fails_other). Proved: exactly the ids without %, or with one of / ; and the comma, are found again (C128_link). |
| C129 | The report shows the folders of the object | partial | Violated by blank names: such folders are left out and what they contain appears below another folder (C129_full_fails). Proved for objects without blank names (C129_tree_partial). |
| C130 | The numbers in the report are those of the object | partial | Violated for sizes recorded by the extension filesystem: they are expected in another type and never seen (C130_full_fails). Proved where the indexer has recorded them too (C130_numbers_partial). |
| C131 | The report shows the current descriptive metadata | partial | Violated with metadata in several versions (which one is shown is random, C131_full_fails) and with another content folder (C131_full_fails_folder). Proved where only one such file was ever stored (C131_info_partial). |
| C132 | A storage root made by init is opened as it was asked for | partial | False: with two of the configurations that come with the tool the new storage root is opened without its rules (C132_full_fails, see C96). Proved: refusal of folders that are not empty; for configurations in folders of their own name with rules, the storage root is opened with version, rules and extensions (up to what WriteConfig loses, see C54), validates without findings and has no objects. |
| C133 | An interrupted init is not taken for a storage root | partial | False in two ways: before the first folder of an extension is made, a storage root without layouts is left where an empty folder `extensions` can be read (C133_full_fails); in stores without folders an interruption between two configurations leaves a storage root with some of the layouts, which puts objects in other folders (C133_full_fails_part). Proved for file systems with folders: the root is the one asked for, or it has no extension folder at all. |
| C134 | Commands working on different objects do not disturb each other | partial | False with layouts that give two objects the same folder (C134_full_fails). Proved for any number of commands and every interleaving if the folders of the objects are apart (C134_apart_partial); all commands can always end (C134_ends). |
| C135 | Commands working on one object at the same time leave it as if one had worked after the other | partial | False, there is no locking: for every object and any two updates there is an interleaving in which both succeed and the first is lost (C135_lost_update); two commands adding one object leave a mixture (C135_full_fails), possibly a damaged object (C135_full_fails_damage). Proved: any number of sessions begun from the same inventory leave the files of all its versions as they are, at every moment. |
| C136 | Extracting an object while it is being updated gives the state before or after | partial | False in one window: the root inventory is overwritten in place, and a reader that comes while only part of it is written finds an object that does not load (C136_full_fails). In every other case the extraction is the one before or the one after (C136_before_or_after_partial); a loaded inventory stays good for any later history (C136_contents); old versions extract as before (C136_old_version_partial). Names that leave the version folder are excluded (SafeNames); a single file is read in one moment. |
| C137 | An inventory that has been written is read back | partial | C137_read_back_partial proves the round trip on the level of the bytes of the file for all inventories whose strings are text; C137_codec discharges the assumption Codec of the theorems about stored objects for JSON files; C137_strings says exactly which byte strings survive. C137_full_fails: the names ff and fe become the same text. |
| C138 | A part of an inventory file is no inventory | proved | C138_part, C138_same for arbitrary files, C138_part_of_written for files of the program; C138_interrupted_partial and C138_old_version_partial sharpen C22 and C136 with it. |
| C139 | Keys that are not specified are reported | partial | C139_full_fails with the key `extra`. C139_unknown_ignored: such a member has no influence on what is read. C139_case_ignored: nor has the case of the letters of keys. |
| C140 | What is given on the command line is used | partial | C140_texts, C140_fixity (exactly the algorithms of file and command line, all known); C140_switches_partial and C140_params_partial are exact. C140_full_fails: without any configuration file of one's own `--ext-NNNN-mets-descriptive-metadata` is never used, because default.toml has a value; C140_full_fails_switch: `--no-compress=false`. |
| C141 | What the configuration file says is used if nothing is given | partial | C141_texts_partial, C141_switches, C141_params; C141_lost and C141_others: exactly six options are lost. C141_full_fails: `create` makes a storage root of version 1.1 although the file says 1.0. |
| C142 | Every option makes a difference | partial | C142_exact_partial: the options that make no difference to what a run takes are exactly twelve (C142_ignored), among them `create --encrypt-aes`, `--aes-key`, `--keypass-file` and `--default-area`; C142_area: the area parameter of extract has none unless `--area` is given as empty. C142_full_fails. |
| C143 | Containers are encrypted if encryption is configured | partial | C143_made_partial (exact for init and create), C143_plain: add and update never encrypt. C143_full_fails. |
| C144 | An object keeps the configuration of its extensions | partial | C144_reading_partial for commands that do not write; C144_writing and C144_over_time: after any commands only the last one decides; C144_not_described: the METS document then describes no primary metadata. C144_full_fails. |
| C145 | The digest algorithm chosen for a storage root is used for its objects | partial | C145_created_partial for create, and for add with the same choice; C145_add says exactly what add does. C145_full_fails. |
| C146 | A storage root at an S3 address is reached by every command | partial | Violated by every command (C146_full_fails_always): Fullpath makes an address the name of a file in the current folder before the kind of storage is chosen, so that no address that does not begin with a slash is ever reached. C146_reached_partial is exact: only init and create pass the S3 configuration on at all. The pattern of S3 addresses belongs to a dependency and is a parameter. |
| C147 | stat shows the versions and files of an object | partial | C147_read_partial: a reader of the text (part of the specification) recovers everything if no text has a line break and no path begins with three blanks; C147_same_partial. C147_full_fails: a message of three lines passes for a file. |
| C148 | The heading of an object tells what its labels say | partial | C148_heading_partial for head, fixity algorithms and numbers; C148_path: the line depends on the digest algorithm only. C148_full_fails. |
| C149 | The information asked for is shown | partial | C149_shown_partial, C149_hidden, C149_no_effect (three infos never matter beside others), C149_names (names in any case, unknown ones refused). C149_full_fails: `ObjectVersionState` alone shows no path. |
| C150 | stat shows every object, and does not end with success otherwise | partial | C150_all_partial: if the status is shown at the end, every object folder was listed completely; C150_one: of one object, either it was loaded and shown, or the listing ends with the line that says it could not be loaded; C150_object_iff says exactly when showing a loaded object crashes; C150_error_success. C150_full_fails, C150_full_fails_crash. |
| C151 | A storage root stays usable when objects are added or updated | partial | C151_opens_partial for objects outside of `extensions`, at any point of interruption; C151_exact: after a successful add the storage root opens as before exactly if the folder is not a new one directly in `extensions`; C151_lost. C151_full_fails: `add` of `extensions/a` with the flat layout reports success, afterwards no command opens the storage root. |
| C152 | Message, user and address given with a command are recorded in the new version | partial | C152_options_partial (what is given is what the session gets), C152_add, C152_update, C152_session (what is stored and read again, for all clean sessions). C152_full_fails: an empty message. |
| C153 | A create that failed can be repeated | partial | C153_unchanged_partial says exactly when a create changes nothing; C153_blocked: otherwise every later create fails; C153_stuck: if the object was not completed, `add` reports success and does nothing, `update` fails and the object does not open. C153_full_fails: `create --fixity md5` without the extension that allows it. |
| C154 | create makes the storage root and the object asked for | partial | C154_create_partial under the conditions of C113 (paths apart, no collisions) and C132 (extension configurations read back); no errors at validation for SHA-512 and usual content directories (C80). C154_object_partial for `add`. Violated for a source folder without files (C154_full_fails); further exceptions are those of C80, C113, C132 and C151, for which those have negations. |
| C155 | Validation of one object finds what validation of the storage root finds about it | partial | C155_folder (findings of the whole validation = those of the root ++ … ++ those of the object alone ++ …), C155_shown_iff, C155_by_id, C155_both. C155_accepted_iff_partial: exact condition of no errors by id; C155_own_partial: it is the object with that id, in storage roots this program wrote with a layout that keeps ids apart. C155_full_fails: layout that omits a prefix. |
| C156 | Metadata of one object is what the metadata of the storage root says about it | partial | C156_folder_partial (objects with different ids; otherwise see C84), C156_by_id (exact), C156_own_partial. C156_full_fails: layout that omits a prefix. |
| C157 | Extraction of one object gives what extraction of the storage root puts into its folder | partial | C157_folder_partial (default area, trees without nesting), C157_by_id (exact), C157_own_partial. C157_full_fails: layout that omits a prefix. |
| C158 | The file extractmeta writes describes the objects | partial | C158_written_partial (what is written parses and describes the metadata), C158_written_iff (when), C158_objects_partial (inventory by inventory, with C83 and C84). decMaps_json: inventories read from JSON text meet the hypothesis on maps. C158_full_fails: a folder without object. |
| C159 | Standard output of extractmeta is a JSON document | partial | C159_never: it is no JSON document, for no metadata and no findings; C159_first_partial: its first value is the document. C159_full_fails. |
| C160 | The page about a file says what is recorded | partial | C160_page_partial: the page after any requests (RightDetail: names exactly those of the inventory, attributes those of the first recorded line). C160_shown: there is a page for every content of the manifest. C160_attrs_partial: after an update of files with different names, read by another process. C160_full_fails: two files with one name. Not modelled: what the page shows of the indexer and of migration; HTML. |
| C161 | An update replaces what changed | partial | C161_object_partial: the session at the object, with all that is needed for the next one. C161_update_partial: the command, opening by id and extraction. Hypothesis GoodUpdate.placed: a path not in the head never had the content; one in the head is unchanged or gets a content that is nowhere in the object and in one file only. C161_full_fails: e gets the content of f, and comes out with its old content. Extensions may keep files of their own during the session (AddsFiles). |
| C162 | A storage root keeps what was put into it | partial | C162_archive_partial: every run (ArchiveRun) with what is asked of the files stated on the history only (Deposit). Hypotheses beside those of Fit: Deposit.placed as in C161, and folders of different objects lie apart. C162_full_fails: two commands, the object gives out an old content. Extensions may keep files of their own during the session (AddsFiles). |
| C163 | A mirroring update makes the latest version the source folder | partial | C163_mirror_partial: the command, opening by id and extraction, if one file is new or changed (and placed as in C161). C163_only_removed: without such a file the storage root stays as it was. C163_full_fails: one of three files is gone from the folder and still comes out. Extensions may keep files of their own during the session (AddsFiles). |
| C164 | An update that failed or was interrupted can be repeated | partial | C164_repeat_partial: runs with any number of updates that failed or were interrupted at any byte before the root inventory was opened for writing (they leave the history as it was) or after it was complete (they count). C164_failed: an update that ended with an error is such a one. C164_as_if: the next update does the same as without the broken one, and the files it writes are the same. C164_full_fails: interrupted when the root inventory has been opened and nothing written yet, the object cannot be opened. C164_leftover: what is left makes the object invalid. Extensions may keep files of their own during the session (AddsFiles). |
| C165 | Versions added by extensions leave a valid object | partial | C165_rounds_valid: if each version taken by itself is as C80 assumes it, the session succeeds and leaves a valid object with N + 1 + (number of automated versions) versions. C165_user_version: each version the object would have without the automated ones is read back with the same date, message, user and files. C165_full_fails: the version of the user is lost when the extension fails afterwards. |
| C166 | The description of the folders is one file of every version | partial | C166_one_content_partial: with one folder (or any text not depending on the order) README.md has this one content in all versions, after any number of sessions, loads in between included. C166_described_partial: each session that changes anything leaves README.md with this content in the version it makes, mirroring mode included. C166_both: a text stored before, not by the last description, gives README.md both digests. C166_full (any number of folders) is refuted by C166_full_fails: orders A, B, A. |
| C167 | Decrypting gives the data that was encrypted, or leaves the files alone | partial | C167_roundtrip and C167_roundtrip_stdout: sealed segments come out as the data, no other file changes. C167_authentic: whatever the container has become, what comes out is a prefix of the data, and all of it if success is reported. C167_no_key_partial: without key or container nothing changes. C167_same_file: output named as the input leaves an empty file. C167_full (a failing run changes nothing) is refuted by C167_full_fails. |
| C168 | The program configured for a format is the one taken | partial | C168_migration, C168_thumbnail: what is taken is configured for the format (media type), with its id and command; nothing iff none is configured. C168_accepted, C168_accepted_thumbnails: a configuration is accepted iff every function is usable. C168_the_one_partial: if one function only names the format it is taken, in every order. C168_full (same function every time) is refuted by C168_full_fails. |
| C169 | Conversion programs are called as configured | partial | C169_migration_partial, C169_thumbnail_partial: exact if no value but the last contains an opening brace; C169_call_partial: the whole call, for content files whose extension has none; C169_extension_partial: same extension if it has no asterisk. C169_target_other: the file the program is to write is never the one it reads. C169_full refuted by C169_full_fails (a.{destination}) and C169_full_fails_star (a.*p). |
| C170 | An update does not crash | partial | C170_no_crash_partial: no session crashes on an object whose head is there (or a new one), if names given to AddReader can be made. C170_reader: AddReader crashes exactly if they cannot. C170_damaged: with a head that is not there every session crashes. C170_full refuted by C170_full_fails. |
| C171 | Files come out of their version although extensions add versions | partial | C171_update_partial (command) and C171_object_partial: for updates as in C161 followed by versions each of which is clean by itself, contents with one digest being the same. C171_full (whatever the extensions do) refuted by C171_full_fails. Extensions may keep files of their own during the session (AddsFiles). |
| C172 | A path on the command line means the place it means in the shell | proved | C172_place is exact; C172_same. Only the code for Unix is modelled. |
| C173 | The metafile extension of an object stays loadable | partial | C173_created (right after creation, every configuration), C173_kept_iff_partial (exactly when it holds for all updates: the metadata file has neither the name of the configuration nor of the schema). Violated: metadata file schema.json replaces the schema (C173_full_fails), ./config.json passes the check of the name and replaces the configuration (C173_full_fails_config). |
| C174 | The folders of different objects lie apart | partial | Holds for the hashed n-tuple layout without negative numbers (C174_hashed_partial; C174_opens_own_partial uses it for whole histories, C174_concurrent_partial for commands at the same time) and the hash-and-id layout for bytes from 16 on. Exact conditions for the flat, flat-omit-prefix, pairtree layouts and direct clean with UTF encoding; n-tuple-omit-prefix for ASCII rests without slash. Violated by flat (a, a/b), pairtree (ab, abde) and direct clean (a//b, a/b). |
| C175 | A storage root keeps what was put into it, also when extensions add versions | partial | Holds if each file of a version, of the user or of an extension, is new at its path or has a content that is new (Deposit), versions of extensions consist of single-name readers and files of the extensions' own (C175_automated_archive_partial). Violated where a content moves onto a path that is there (C175_full_fails). Missing: extensions that delete or rename. |
| C176 | Deduplication stores every content once; without it every file is stored by itself | partial | Holds if extensions store no content by themselves (C176_add_partial, C176_update_partial; C176_session and C176_run over time for a digest that is in the object's inventory in lower case and once). Violated otherwise (C176_full_fails): what an extension stores through AddReader is not looked up. C176_asked settles which settings lead to deduplication, C176_apart what happens without. |
| C177 | What create is asked for is what the storage root and the object have | partial | C177_create_partial for SHA-512 and SHA-256 and files that do not conflict; C177_area and C177_echo without restriction, the area being that of the configuration file. Violated for --default-area, which create accepts and ignores (C177_full_fails). |
| C178 | The digest algorithm given decides for good whether the object validates | partial | Violated (C178_full_fails): create --digest md5 succeeds, and the object made is rejected. Exactly SHA-512 leads to an accepted object (C178_exact); any other algorithm never does, whatever is added (C178_other) and whatever updates follow (C178_for_good). SHA-256 is rejected because of a warning that is reported as an error. |
| C179 | Which configurations of the extension manager are taken | proved | C179_taken, C179_rules, C179_stored. For a manager in the folder initial see C96. |
| C180 | Objects are found by later commands, with the layouts read from the storage root | partial | Holds (C180_processes_partial) if each layout can be loaded from what it writes and those in use are the same then, which the default configuration meets; the storage root opens exactly if the former holds (C180_opens_iff). Violated: after create with 0003, 0004 or pairtree every command crashes (C180_crash, C180_full_fails); with 0006 every later command looks in another folder (C180_omit), with 0007 in none (C180_tuple_omit). |
| C181 | An archive with the default configuration and URNs as ids | proved | C181_default, without hypotheses on folders; deposits are those of C175 (AutoSession, Deposit), the settings of new objects those of GoodArgs, and an id is added only when it has no object. C181_free: an id whose folder holds no file counts as free, whatever was done with other ids. |
| C182 | The versions of an object that validates are v1 to vN with one padding | proved | C182_accepted for objects, C182_names_iff for the checks. Version numbers are unbounded (no 64 bit limit of Atoi). |
| C183 | Exactly the valid inventories are accepted | partial | C183_accepted_iff gives the exact conditions of acceptance; valid inventories with sha512 are accepted (C183_valid_partial), and what is accepted is valid exactly if it meets the list in Unchecked (C183_accepted_partial). Violated: sha256 is never accepted (C183_full_fails_sha256); content paths outside the version folders are accepted (C183_full_fails_content), as are conflicts of paths that are not neighbours (C37, C38). |
| C184 | Exactly which objects validate | proved | C184_accepted_iff: acceptance iff ObjAccepted, a specification over the stored bytes and the decoded inventories only. C184_ignored: acceptance is the same for two folders that differ in logs and extensions only. The list also shows what is not asked: the fixity block may name files that are not in the manifest, a version's inventory may have other digests than the root's for the same logical paths. |
| C185 | Storage layouts do not crash | partial | C185_crash_iff says exactly which configurations crash and on which ids; sensible configurations never do (C185_no_crash_partial), and 0003 and 0004 report an error exactly if the tuples are longer than the digest (C185_short). Violated: the configuration the program itself writes for 0007 crashes on every id (C185_full_fails); negative sizes are accepted. |
| C186 | Valid objects of other tools stay valid when updated | partial | C186_update_iff: the object is valid after a session if and only if all old time stamps are whole seconds; C186_updates_partial: then any sequence of sessions keeps it valid and keeps every file of the old versions. Violated: time stamps with fractions are cut off in the rewritten root inventory only, the object becomes invalid (C186_full_fails) and validation reports it (C186_rejected). |
| C187 | A digest occurs once in the manifest, regardless of case | partial | C187_once_iff says exactly when; objects whose digests have small letters, all objects made by the tool among them, keep that for ever (C187_small_partial). Violated: an object of another tool with capital letters in its digests, the same content added again (C187_full_fails); neither loading nor validation reports it (C187_unseen). |
| C188 | An object that validates can be extracted | partial | C188_extract_iff says exactly when: every digest of the version has a content path and is written in small letters; then the files arrive (C188_extract_partial). Violated: validation compares digests regardless of case, extraction compares them exactly, so an object with capital letters in its digests validates but cannot be extracted (C188_full_fails). |
| C189 | Damage to a file of an object is noticed | partial | Loss or change of inventories and of every file listed in one of them is noticed (C189_noticed, C189_damage_partial), so is a sidecar that is lost or names another digest (C189_sidecar) and a lost declaration (C189_declaration_lost). C189_change_iff says exactly which changes go unnoticed. Violated by sidecars of other algorithms (C189_full_fails) and by files in a version's folder beside the content directory (C189_full_fails_beside); neither is looked at. |
| C190 | A file put into an object from outside is noticed | partial | C190_added_iff says exactly which names go unseen (all versions have inventories, as they must on a local disk; C190_added_partial). Violated by files in a version's folder beside the content directory (C190_full_fails) and by names like those of an inventory or a sidecar, with any character for the first dot (C190_full_fails_name). |
| C191 | The verdict about an object does not depend on the storage | partial | What validates on a local disk validates everywhere (C191_from_disk). The other way exactly if every version has content and an inventory (C191_to_disk_iff). Violated by a version that only renames or removes files: fs.Stat on the content folder fails and the error is compared with == (C191_full_fails). |
| C192 | Metadata in YAML or TOML is stored as the same document in JSON | proved | C192_converted_iff (which documents are converted, no hypotheses), C192_same_document (every place holds the same), C192_yaml, C192_toml, C192_stored (through the extension). Schema, decoders and encoder are parameters. |
| C193 | The version an object declares and the type of its inventory agree | partial | The declaration is always that of the root, the type agrees exactly if the version is not 2.0 (C193_created_iff, C193_created_partial). Violated for 2.0: newInventory knows only 1.0 and 1.1 and takes 1.0 for everything else (C193_full_fails). Validation never compares the two: a valid object stays valid with the declaration of any other version, even of one that does not exist (C193_not_compared, C193_full_fails_checked). |
| C194 | The n-tuple-omit-prefix layout works on characters | partial | The path is the documented one exactly if all characters in the tuples are ASCII (C194_characters_iff, C194_characters_partial). Violated otherwise: sizes are counted and tuples cut in bytes, so a tuple can end inside a character and the path is no text at all (C194_full_fails, C194_not_text). Reversing works on characters (C194_reversed) and is undone by reversing again exactly for texts (C194_reversed_iff). |
| C195 | Files of different names do not take each other's place in an object | partial | With utfEncode and names that need no fallback two files share a content path exactly if area folder and name are equal (C195_same_iff), the path is inside the content directory (C195_inside), and with the shipped configurations everything comes out again (C195_default_partial; hypotheses only about names and contents). Violated without utfEncode, the default of the extension: c? and c* are stored in one file, the first content is lost without an error (C195_full_fails). Violated with the shipped configuration for a long name and a file named like its fallback path (C195_full_fails_shipped). |
| C196 | Lost files of an object are reported, whatever else is lost with them | proved | C196_noticed, C196_loss_iff, C196_where (where a file that may be missing lies), C196_checked (in terms of checkFolder), C196_own (objects the program wrote). C196_loss_iff asks that no digest of manifest or fixity has an empty list of files. On object stores (plain) an inventory of a version other than the first may be missing: C189. |
| C197 | A storage root made and filled by the program validates | partial | Does not hold in full: an add that is interrupted leaves a folder with a declaration and no inventory, and validation of the whole storage root then fails (C197_interrupted for every run, C197_full_fails). C197_validates_partial: it holds if nothing was left behind, the objects have SHA-512 and are not newer than the storage root, the content directory is no beginning of inventory.json.sha512, and on local disks every version brought content. C197_validates_iff: on local disks in no other case. C197_listed: the folders that are listed. C197_begun: an object without inventory. Missing: storage roots with other layouts, ids that are no URNs, storage roots on object stores for the only-if. |
| C198 | Validation of a storage root notices lost files of objects | partial | Does not hold in full: an object that is lost as a whole is not noticed, nothing at the storage root names its objects (C198_full_fails). C198_loss_iff: on local disks the rest validates exactly if the declaration of the storage root is left and each object is lost as a whole or has lost only files in logs and extensions; so the configurations of the storage root extensions can be lost unnoticed as well. C198_noticed_partial: it is noticed if a file of that object is left. Hypotheses besides those of C197: no file below a folder of an object has the name of an object declaration (content with such a name could be listed as an object of its own). Missing: storage roots with other layouts, ids that are no URNs, object stores. |
| C199 | Validation of a storage root notices changed files of objects | partial | Does not hold in full: a declaration or a sidecar may change as long as it says the same, for example with another end of line (C199_full_fails). C199_change_iff: exactly that and files in logs and extensions go unnoticed, on local disks and object stores. C199_noticed_partial: content and inventories. Hypotheses as in C197. Missing: storage roots with other layouts, ids that are no URNs, several files changed at once. |
| C200 | Validation of a storage root notices foreign files | partial | Does not hold in full: a file in a folder of a version beside the content passes (C200_full_fails). C200_added_iff: exactly the files in the extensions of the storage root and those of C190 in an object go unnoticed. C200_noticed_partial: files in folders beside those of the objects, and in the content of a version, are noticed. C200_top_iff: of files directly in the storage root exactly those whose name has a declaration in it are noticed, also in object stores. Hypotheses as in C197. Missing: storage roots with other layouts, ids that are no URNs, folders in object stores. |
<!-- table end -->

## Plan per property, as made before the proofs

| Property | What is modelled | How it is proved |
|---|---|---|
| C01 | inventory operations as `step`, histories as lists | invariant: non-head versions unchanged, head name fresh on new version |
| C02 | `NewVersion` | refinement to the abstract map path -> digest |
| C03 | `NewVersion` name arithmetic, histories | invariant by induction |
| C04 | `verName` / trimming + Atoi | round trip via `Nat.toDigits` lemmas |
| C05 | same | negation at v09 (width 1); partial while n < 10^width |
| C06, C07 | `AlreadyExists`, `IsUpdate` | characterisation "digest in the last version containing the path"; negation for deleted paths and padded names; partial for paths in head |
| C08 | `AddFile` | postcondition on abstract head map; negation for re-adding a deleted file; partial otherwise |
| C09 | histories | invariant for new/add/delete/mirror; negations via copy and rename |
| C10 | histories | invariant |
| C11 | histories | invariant, by digest |
| C12 | histories | invariant (list prefix order) |
| C13 | `BuildManifestName` with `filepath.Clean`/`Join` | for clean names; negation with `..` |
| C14–C16 | `DeleteFile`, `RenameFile`, `CopyFile` | refinement to map update; negations on occupied targets |
| C17 | `echoDelete` with real binary search | exact characterisation; negation for prefix boundary |
| C18, C19 | `EndUpdate`, modified flag | negation; partial |
| C20 | `GetVersionStrings` | sorted permutation |
| C21–C26 | object session with write trace | trace-prefix invariants |
| C27–C31 | `IterateStateFiles`, `Extract` | induction over the state map |
| C32, C33 | content-subpath | round trip; boundary negation |
| C34–C40 | `checkVersions`, `checkManifest`, `checkFixity` | iff theorems; negations for incomplete checks and panics |
| C41 | `CheckFiles` | iff |
| C42, C43 | `EqualState`, `isEqual` | reflexive, soundness part; tamper negations |
| C44 | validation over permuted maps | permutation invariance of verdict; negation for codes |
| C45 | `Compact` | for every permutation |
| C46 | error tables | totality |
| C47–C54 | layouts | round trip/injectivity, safety, panics, config loss |
| C55, C56 | extension manager | for every sorted permutation |
| C57–C59 | storage root, declarations | tree induction, decision logic |
| C60 | `fallback` as interleaving machine | race witness; sequential correctness |
| C61 | jsonl read/write paths | round trip, negations |
| C62, C63 | `EndUpdate` recursion, pipes | measure; progress |
| C64 | name cleaning | induction |
| C65 | `EndArea`, `EndUpdate` | sessions; negation when areas are ended separately |
| C66 | `Extract` | permutation invariance |
| C67–C69 | report | for every outcome of sorting; negations |
| C70, C71 | layouts | path components; negations |
| C72–C74 | storage root | from the decision logic of create/open; negations |
| C75 | `ObjectBase.Check` | from the absence of each error code to the claim about the folder |
| C76 | the same | exact condition for every step of validation to succeed |
| C77 | the same, `EqualState`, `EqualMeta` | version sequences of both inventories; negation by a forged history |
| C78 | the same | from C75 for two folders |
| C79 | the same | validity as a specification of its own, every step of the check quiet for it; exact condition; negations |
| C80 | `Init`, sessions, reading back, `Check` | invariant `Intact` kept by create, session and reload; with C79 the exact condition |
| C81 | `LoadStorageRoot`, `CheckDirectory`, `CheckObjects` | coverage of the tree by listed folders; exact names forced by E001; converse for tidy hierarchies |
| C82 | the same | exact condition for the end of validation; negations by a root with two objects and by a wrong declaration |
| C83 | `GetMetadata`, `Checksums` | lookup lemmas for mapped and filtered maps; violated for checksums of the second content path |
| C84 | `ExtractMeta` | fold over the enumeration of C58; violated if identifiers repeat |
| C85 | `StorageRootBase.Extract` | object folders are apart, so writes do not interfere; violated for areas |
| C86 | `Indexer.GetMetadata`, `UpdateObjectAfter` | loop over versions; later histories from C61; violated by versions without content |
| C87 | `clean`, `endUpdate`, `closeObj` | `mdel` of a fresh last key, last version of a gap-free inventory; count versions along the rounds; concrete session with an unused round |
| C88 | `addFile`, `objAddReader`, `session` | permutation of the list of content paths for one `AddFile`; relation `Adds` along calls and rounds; versions have different directories |
| C89 | Migration: `migrateFiles` | induction over the files, with the exact effect of adding, deleting and renaming |
| C90 | Migration: `migCollect`, `migrateFiles` | totality of each step; a missing or empty state list reaches an error |
| C91 | Migration: `migMeta`, `migSources` | fold over the lines, last line per digest |
| C92 | DirectClean: `dcBuild` | characters of each step; cleaning a path adds only full stops and slashes |
| C93 | DirectClean: `dcFallback` | exact form of the sub folders and of the pieces |
| C94 | Model/Cmd, Model/Root | all changes are lifted into the id's folder; add runs only if it is empty |
| C95 | Model/Cmd, Model/Root | from C57: what LoadObjectByID returns; counterexample with layout 0006 |
| C96 | Model/ExtLoad | WriteConfig then CreateExtensions is the identity on sorted, distinct extensions; counterexamples from /repo/data |
| C97 | Model/ExtLoad | the scan is a concatenation of what the folders contribute; counterexample without validation |
| C98 | `storeThumb`, `streamThumb`, `thumbFiles` | inductive relation for sessions; invariant: the i-th thumbnail is in the file with number i; numbers are injective in the names whatever the random numbers |
| C99 | `thumbMeta`, `thumbReported`, `thumbTodo` | fold over the lines with distinct sources, composed with C98; three counterexamples |
| C100 | `streamThumb`, `infoName`, `thumbFile` | lookup in the remembered names; lines only grow; counterexample with contentDirectory data |
| C101 | `thumbSize` | arithmetic of integer division, exact characterisation |
| C102 | metafile | model of UpdateObjectBefore, ReadFile and GetMetadata; place written = place read for the good settings; newest version first |
| C103 | metafile | case analysis of UpdateObjectBefore |
| C104 | metafile | trace of UpdateObjectBefore in all branches |
| C105 | metafile | length argument for replacing $ID; trimming of leading slashes |
| C106 | filesystem extension, AddFolder, EndUpdate | invariant: an update only adds names; placeholders by induction over the tree |
| C107 | filesystem extension | characterisation of the report; invariant that each added file has its line in the buffer; the file of the records is found again (C61) and differs from the inventories written after it |
| C108 | record buffers of indexer and filesystem | state machine of the writer; induction over versions |
| C109 | Indexer.GetMetadata during an update | completion of readIndex with buffers |
| C110 | contexts of findings | trimming of texts; splitting at the first quote |
| C111 | configuration of direct-clean | documented parameters as specification; case analysis of defaults |
| C112 | configuration of 0002-0007 | catalogue's parameters as specification |
| C113 | `addObjectByPath`, `session`, `loadByID`, `extract` | Additions under new paths determine the head state (`addAll_new`); every content path listed holds a submitted or an old content (`session_provenance`); the result is a valid object (C80), hence opens; extraction succeeds and delivers what is expected. |
| C114 | `areaPathRegexp`, loop over the arguments, `addObjectByPath` | regular expression as a relation; contents of the map as a relation to the arguments; composition with C113; counterexamples as complete runs |
| C115 | ends of the commands, `showStatus` | exit status and shown findings as results of the runs; equivalences with the outcome of the modelled commands; composition with C81 and C78 |
| C116 | `UpdateObjectAfter` of the METS extension: names, loop over the content paths, writing | `metsDocs_not_none` (when the function goes on), frames of `AddData`/`AddReader`, digests by C08 |
| C117 | loop over files, primary metadata | the loop as a sum of contributions of files (`metsFiles_ok`), C83 for what the metadata says |
| C118 | identifiers, structural maps, groups | `mem_struct`, `ids_unique`: identifiers by entry and kind |
| C119 | packing and migration events, objects, fixity | `C119_packing_partial` (iff), `C119_links_partial` (iff), `C119_migration` |
| C120 | `newMDSec`, `checksumTypeToMets` | case analysis; `C120_full_fails_always` for every document |
| C121 | fixity block (`AddFile`, `Finalize`) | invariant of all steps of a session (`StepsKeep`), carried along `Life`; values from `DiskMatches.fixity` |
| C122 | `doAdd`, `addObjectByPath`, `Init` | first operation of every add of a free id is the creation of the declaration; no root inventory in the trace of a failed session |
| C123 | `PrimaryDescriptiveMetadata` | `NamesFile` gives the name from the setting; sections collected before carry no type |
| C124 | `Server.download` | invariant: the object kept was opened in the folder of its id, its metadata list paths of its manifest |
| C125 | the handlers of `Server` | `serve_kept`: after each request what is kept is what would be loaded anew |
| C126 | `Server.version`, `Server.manifest` | exactness of the metadata (C83) and of the map built by the page |
| C127 | `Server.downloadExtFile` | `cleanGo_walk`: a path that does not climb stays below its folder; invariant over the steps of all requests |
| C128 | links and handlers of `Server`, `net/url` escaping, gin's choice of path | unescaping undoes escaping; the two kinds of escaping differ in three characters; unescaping what contains % makes it shorter |
| C129 | `Server.report`: `addToTree`, `flattenTree` | paths of the tree = prefixes of the names added; reading the lines with a stack gives the paths back; depth = maximum of the lengths |
| C130 | `Server.report`, `Server.displayObject`: numbers | counters of a fold are counts of the list; invariance under permutation |
| C131 | `Server.report`: info file | fold over the versions |
| C132 | storageroot.go, storagerootbase.go `Init`, `Load` | model declaration, documents, configurations as writes; reading back by `created_own` and `load_complete` |
| C133 | storagerootbase.go `Init` interrupted | `InitCrash` at any write; every folder without complete configuration makes loading fail |
| C134 | commands as programs of single steps (`Prog`, `Conc`) | the result of each program alone on its folder is invariant under its own steps and those of the others |
| C135 | as C134, both commands in one folder | schedules built by `Conc.look`, `Conc.puts`; kept files by the set of paths a program writes |
| C136 | loading and extraction with every file read at its own moment (`loadRootAt`, `extractAt`) | content files listed in the inventory do not change after it is complete; position of the root inventory in the trace |
| C137 | `invText`, `invOfText` and their parts (`escStr`, `scanVal`, `unesc`, `readField`, …) | a text `Reads` as its tree (strings, arrays, objects by induction over the lines); the members are folded back into the maps |
| C138 | `parseJson`, `invOfText`, `session` | more text changes nothing of what has been scanned (`scan_append`, induction over the steps), so a text and a part of it differ by white space only |
| C139 | `invOfText`, `readField`, `isField` | each step of the fold is the identity for unknown keys; congruence in the folded key |
| C140 | `settle`, `paramValues` | the configuration as a chain of overlays; the value of each setting by the option that stands for it |
| C141 | `settle`, `flagDefault` | as C140 |
| C142 | `taken` | `settle` depends only on the options it reads |
| C143 | `factoryArgs`, `openAs` | case by case over the commands |
| C144 | `metsPrimaryParam`, `paramValues` | the parameter is always among the values |
| C145 | `newObjectDigest`, `settle` | as C140 |
| C146 | `fullpath`, `factoryArgs`, `openAs` | case by case over the commands; an argument becomes a rooted path (C172) |
| C147 | `rootStat`, `objStat` | a line-by-line reader as specification; induction over versions, states and files |
| C148 | `objStat` | evaluation of the listing |
| C149 | `statInfos`, `wanted`, `rootStat` | the listing depends on the selection through six questions only |
| C150 | `rootStat`, `statRun` | listing of all folders by C58; which nil pointers loading excludes by C40 |
| C151 | `addObjectByPath`, `loadStorageRoot` | which paths a command writes; loading depends on files without slash and on the folders in `extensions` |
| C152 | `sessionInfo`, `session`, `settle` | C140 for the options, C02 for the new version, C80 for reading back |
| C153 | `createRun` | exact condition of changes; C122 and C132 for what follows |
| C154 | `createRun` | composition of C132, C151, C113, C152 and C80 |
| C155 | `validateCmd`, `checkByID`, `checkNamed` | the version found at loading is the one `CheckDirectory` finds; splitting the list of folders; C57 for ids |
| C156 | `extractMetaOf`, `oneObjectOf` | completeness of the metadata of the root, C57 for ids |
| C157 | `extractOf`, `oneObjectOf` | C85 for the folder, C57 for ids |
| C158 | `metaRun`, `metaText` | text and tree by `Reads`, lookup by name in trees |
| C159 | `metaRun` | `Reads` for any text after the value |
| C160 | `detailServe`, `detailPage`, `fsNest` | merge of the reports of extensions; lines per digest and version; C125's invariant for what is kept |
| C161 | `addFile`, `copyFile`, `isUpdate`, `updateCmd`, `extract` | state of the head after the files one by one (`SetPath`), then C80's stored object, then extraction |
| C162 | `addCmd`, `updateCmd`, `loadByID`, `extract` | invariant over the run: each folder holds an object with its history; C161 for the step |
| C163 | `updateCmd`, `objEcho`, `echoDelete`, `extract` | C161 for mirroring sessions: what stays is what is not in the mirrored place; C26 for the failing case |
| C164 | `updateCmd`, `session`, `CrashPrefix`, `loadByID`, `extract` | relation between a folder and the same with left-overs in sub folders; kept by whole sessions (they create what they write) and by broken ones (C21) |
| C165 | `session` with `rounds`, `endUpdate`, `closeObj` | a session with rounds is the session without, its root inventory not written, followed by a session for the round (calls do not depend on the trace); C80 for the inventory in memory; folders with the same files are interchangeable |
| C166 | `UpdateObjectAfter` of content-subpath | invariant of sessions: the path has one digest in all states; and: if any version has the path, so has the head; three sessions as counterexample |
| C167 | `main` of decrypt | tink's streaming encryption as numbered segments with the last one marked; authenticity as a hypothesis; induction over the segments |
| C168 | `GetMigrations`, `GetThumbnails`, `GetFunctionByPronom`, `GetFunctionByMimetype` | lookup over all permutations of the map |
| C169 | `Migrate`, `Thumbnail`, `DoMigrate` | `ReplaceAll` on words made of pieces; the names `os.CreateTemp` gives |
| C170 | sessions | every operation keeps the head among the versions, and panics only where the head is missing or AddReader has no names |
| C171 | sessions, extraction | the run is split into its versions (C165), the files of old versions and their contents are followed through the later ones, then extraction is exact |
| C172 | paths | cleaning relative paths keeps where they lead from any folder; cleaning rooted ones gives the place |
| C173 | metafile | follow the two files through the writes of the updates |
| C174 | layouts | folders lie apart iff neither list of components begins with the other; per layout the list of components |
| C175 | archive runs | one session more as in C162 on the inventory in memory, induction over the versions of extensions, then over the run |
| C176 | deduplication | invariant of the session: each manifest entry has one path; with content = digest of C05/C80 this is one copy; without the check each call writes the file it targets |
| C177 | create, add, update options | settings (C140, C141) composed with createRun; object of the first session read back (add_leaves), fixity by C121, declaration by Intact |
| C178 | create --digest | root inventory decoded after any session has the algorithm of the object; acceptance requires sha512 |
| C179 | CreateExtensions | members of the scan characterised one by one; last initial unique; fold over the rest |
| C180 | init, create, add, update, WriteConfig and loading of layouts | restart keeps names and rules, so organize gives the same names; layouts in use equal as functions; run of processes reduced to the run of C175 |
| C181 | init, create, add, update, the default extensions of the storage root, direct-clean layout | on such ids direct-clean only replaces colons, so folders are one segment and injective; discharges apart, clear and new of C180 |
| C182 | Finalize, checkVersions | digits of one value and length are equal, so a name is its number padded; padding fold leaves one width; sequence gives 1..N |
| C183 | Finalize, check, checkVersions, checkManifest, checkFixity | findings of every section characterised; acceptance = no section has an error; compared with ValidInv of C79 |
| C184 | checkFolder, checkObject, checkFilesAndVersions | every finding list characterised by a condition on the bytes; C183 for each inventory; Checkable (C76) for completion |
| C185 | BuildStorageRootPath of every layout | slices characterised by their bounds; each layout's loops by arithmetic on the bounds |
| C186 | session, EndVersion/StoreInventory, OCFLTime.MarshalJSON, Load, Check | a valid object meets the invariant of own objects (C80) if its stamps are whole seconds; the unchanged inventory of the last version gives the converse |
| C187 | AddFile, checkManifest | new keys of the manifest are in lower case; induction over operations and sessions |
| C188 | checkFolder, loadByFolder, Extract | what validation establishes (C75, C183) against when extraction of each digest succeeds |
| C189 | checkFolder, getVersion, checkFilesAndVersions | from the exact description of accepted objects (C184): compare the folder before and after |
| C190 | checkFolder, checkVersionFolder, getVersion | from the exact description of accepted objects (C184): compare the folder before and after |
| C191 | checkFolder, getVersionInventories, checkFilesAndVersions | from the exact description of accepted objects (C184): only two conditions depend on the storage |
| C192 | toStringKeys, UpdateObjectBefore | documents as trees with places; induction along the place for sameness, along the tree for being accepted |
| C193 | newObject, newInventory, CreateObject, checkFolder | the declaration is written at creation and no session touches it; validation through the exact description of accepted objects (C184) |
| C194 | reverse, BuildStorageRootPath | UTF-8 is self-synchronizing: the delimiter is found only between characters; the two models of DecodeRune agree; lengths in bytes and characters agree only for ASCII |
| C195 | BuildObjectManifestPath of the manager, direct-clean, content-subpath | the path is the folders of the area followed by the encoded segments; the encoding of segments is injective (C52); folders of areas are not in one another; then C181 |
| C196 | Check, checkFiles, checkVersions, loadInventory | the root inventory must still be there, so it is the same; with it the list of files; content directories are not emptied as all their files are listed; for own objects every file outside logs and extensions is of one of the kinds |
| C197 | GetObjectFolders, Check, CheckDirectory, CheckObjects; init, create, add, update | the files at the top are those of init, all others in extensions or below the folder of an id; every object has the inventories of its versions and one declaration, which comes before its folders in the listing; then C79 and C81 |
| C198 | GetObjectFolders, CheckDirectory, CheckObjects, Check | a folder of the rest belongs to an object of the run; if a file of it is left a folder on the way to that file is listed, and it can only be accepted if it is the folder of the object; then C196 |
| C199 | GetObjectFolders, CheckObjects, Check | the folders that are listed do not change; the other objects have the files they had; then C189, and of a valid object only declarations and sidecars are not listed |
| C200 | GetObjectFolders, CheckObjects, Check | a folder on the way to a foreign file is listed and would need two files to be an object; in an object C190 |
