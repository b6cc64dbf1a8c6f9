{"id": "C01", "title": "Sealed versions are immutable", "statement": "Once a new version has been opened on an object's inventory, no sequence of add, delete, rename, copy, mirror-deletion or further new-version operations changes anything recorded for any earlier version: its logical paths, digests, message, user and creation time stay exactly as they were.", "quantifier": "all inventories with a gap-free version history, all finite operation sequences with arbitrary arguments", "why_tests_cant": "histories are unbounded and the versions share Go maps and slices, so a single aliasing or overwriting step anywhere in an arbitrary history would break it", "anchors": ["pkg/ocfl/inventorybase.go:InventoryBase.NewVersion", "pkg/ocfl/inventorybase.go:InventoryBase.AddFile", "pkg/ocfl/inventorybase.go:InventoryBase.DeleteFile", "pkg/ocfl/inventorybase.go:InventoryBase.RenameFile", "pkg/ocfl/inventorybase.go:InventoryBase.CopyFile", "pkg/ocfl/inventorybase.go:InventoryBase.echoDelete", "pkg/ocfl/helper.go:copyMapStringSlice"]}
{"id": "C02", "title": "A new version starts as an exact copy", "statement": "Opening a new version succeeds on every well-formed inventory, makes it the head, and its initial logical content (path to digest) is exactly that of the previous head; on an empty inventory it is empty.", "quantifier": "all well-formed inventories, all messages and users", "why_tests_cant": "the state space of inventories is unbounded", "anchors": ["pkg/ocfl/inventorybase.go:InventoryBase.NewVersion", "pkg/ocfl/helper.go:copyMapStringSlice"]}
{"id": "C03", "title": "Version numbers are contiguous and head is the last", "statement": "After any history the version names are exactly those of 1..n without gaps or duplicates, and the head names version n.", "quantifier": "all operation histories starting from a freshly created inventory or any inventory with a gap-free history", "why_tests_cant": "histories are unbounded; names go through string formatting and parsing", "anchors": ["pkg/ocfl/inventorybase.go:InventoryBase.NewVersion", "pkg/ocfl/inventorybase.go:InventoryBase.Finalize"]}
{"id": "C04", "title": "Version names round-trip", "statement": "The number parsed back from the name given to version n is n, for unpadded and zero-padded naming, so distinct numbers get distinct names and the version opened after n is n+1.", "quantifier": "all version numbers n >= 1 and all padding widths", "why_tests_cant": "numbers and widths are unbounded; errors sit at digit-count boundaries and in the cutset trimming of 'v' and '0'", "anchors": ["pkg/ocfl/inventorybase.go:InventoryBase.NewVersion", "pkg/ocfl/inventorybase.go:InventoryBase.Finalize"]}
{"id": "C05", "title": "Zero-padding width is kept", "statement": "Every version of a zero-padded object gets a name of the same length as the first, so an object the tool has written is never rejected for inconsistent padding.", "quantifier": "all padding widths and version counts", "why_tests_cant": "the failure sits at version 10^width, unreachable for an ordinary test", "anchors": ["pkg/ocfl/inventorybase.go:InventoryBase.NewVersion", "pkg/ocfl/inventorybase.go:InventoryBase.checkVersions"]}
{"id": "C06", "title": "Duplicate detection is exact", "statement": "Asking whether a file already exists with a given digest answers yes exactly when the current head maps that path to that digest, and never fails on a well-formed object (padded or not).", "quantifier": "all well-formed inventories, paths and digests, every map iteration order", "why_tests_cant": "depends on the whole version history and on Go map iteration order", "anchors": ["pkg/ocfl/inventorybase.go:InventoryBase.AlreadyExists"]}
{"id": "C07", "title": "Update detection is exact", "statement": "Asking whether adding a digest at a path would be an update answers yes exactly when the head maps the path to a different digest.", "quantifier": "all well-formed inventories, paths and digests, every map iteration order", "why_tests_cant": "depends on the whole version history and on Go map iteration order", "anchors": ["pkg/ocfl/inventorybase.go:InventoryBase.IsUpdate"]}
{"id": "C08", "title": "Recording an added file sets exactly that path", "statement": "After a file is recorded, the head maps each given logical path to the file's digest and to no other, and maps every other path as before.", "quantifier": "all well-formed inventories, logical paths, content paths and digests", "why_tests_cant": "depends on history (a path deleted and re-added, changed, reverted) and on map order", "anchors": ["pkg/ocfl/inventorybase.go:InventoryBase.AddFile"]}
{"id": "C09", "title": "One digest per logical path", "statement": "In every version of an object every logical path appears at most once, under at most one digest, whatever operations were executed.", "quantifier": "all operation histories", "why_tests_cant": "an invariant over unbounded histories; only rare combinations of operations can break it", "anchors": ["pkg/ocfl/inventorybase.go:InventoryBase.AddFile", "pkg/ocfl/inventorybase.go:InventoryBase.CopyFile", "pkg/ocfl/inventorybase.go:InventoryBase.RenameFile", "pkg/ocfl/inventorybase.go:InventoryBase.DeleteFile"]}
{"id": "C10", "title": "No dangling digests", "statement": "Every digest referenced by any version of an object has at least one content path in the manifest, after any history of operations.", "quantifier": "all operation histories", "why_tests_cant": "an invariant over unbounded histories", "anchors": ["pkg/ocfl/inventorybase.go:InventoryBase.AddFile", "pkg/ocfl/inventorybase.go:InventoryBase.CopyFile", "pkg/ocfl/inventorybase.go:InventoryBase.IterateStateFiles"]}
{"id": "C11", "title": "No unreferenced manifest digests", "statement": "Every digest in the manifest of an object written by the tool is referenced by some version, so the tool's own validation raises no unreferenced-digest error.", "quantifier": "all operation histories", "why_tests_cant": "an invariant over unbounded histories", "anchors": ["pkg/ocfl/inventorybase.go:InventoryBase.AddFile", "pkg/ocfl/inventorybase.go:InventoryBase.checkManifest"]}
{"id": "C12", "title": "The manifest only grows", "statement": "No operation removes or changes a manifest entry: every content path recorded for a digest stays recorded for that digest, in the same order.", "quantifier": "all operation histories", "why_tests_cant": "an invariant over unbounded histories", "anchors": ["pkg/ocfl/inventorybase.go:InventoryBase.AddFile", "pkg/ocfl/inventorybase.go:InventoryBase.CopyFile", "pkg/ocfl/inventorybase.go:InventoryBase.DeleteFile"]}
{"id": "C13", "title": "New content lands inside the current version", "statement": "The content path chosen for a new file lies strictly below <head>/<content directory>/, so adding files never touches the files of earlier versions, whatever the file is called.", "quantifier": "all heads, content directories and file names", "why_tests_cant": "names are unbounded; path cleaning has corner cases with '.', '..' and empty segments", "anchors": ["pkg/ocfl/inventorybase.go:InventoryBase.BuildManifestName", "pkg/ocfl/inventorybase.go:InventoryBase.BuildManifestNameVersion"]}
{"id": "C14", "title": "Delete removes exactly one path", "statement": "Deleting a logical path removes that path from the head and leaves every other path's digest unchanged; deleting an absent path changes no path.", "quantifier": "all inventories and paths", "why_tests_cant": "state space unbounded", "anchors": ["pkg/ocfl/inventorybase.go:InventoryBase.DeleteFile"]}
{"id": "C15", "title": "Rename moves exactly one path", "statement": "Renaming a to b gives b the digest a had, removes a, leaves every other path unchanged, and never leaves b with two digests.", "quantifier": "all well-formed inventories and pairs of paths", "why_tests_cant": "depends on whether the target already exists; state space unbounded", "anchors": ["pkg/ocfl/inventorybase.go:InventoryBase.RenameFile"]}
{"id": "C16", "title": "Virtual copy sets exactly one path", "statement": "Creating a virtual copy of known content at a path makes the head map that path to that content and nothing else, and leaves all other paths unchanged; content not in the manifest is refused.", "quantifier": "all well-formed inventories, paths and digests", "why_tests_cant": "depends on whether the path already exists; state space unbounded", "anchors": ["pkg/ocfl/inventorybase.go:InventoryBase.CopyFile"]}
{"id": "C17", "title": "Mirror update deletes exactly the vanished files", "statement": "With the mirroring ('echo') strategy, exactly those logical paths inside the updated area that were not part of the new input are removed; paths outside the area and re-submitted paths keep their content.", "quantifier": "all inventories, input sets and area prefixes", "why_tests_cant": "depends on binary search over unbounded sorted inputs and on prefix boundaries", "anchors": ["pkg/ocfl/inventorybase.go:InventoryBase.echoDelete", "pkg/ocfl/objectbase.go:ObjectBase.echoDelete"]}
{"id": "C18", "title": "A deletion-only mirror update is recorded", "statement": "If a mirroring update re-submits only unchanged files and some files have vanished, the new version is written and lacks the vanished files.", "quantifier": "all objects and input sets", "why_tests_cant": "needs the interplay of the modified flag, duplicate detection and the end-of-update sequence", "anchors": ["pkg/ocfl/objectbase.go:ObjectBase.EndUpdate", "pkg/ocfl/objectbase.go:ObjectBase.AddFile"]}
{"id": "C19", "title": "Changes are never lost by the modified flag", "statement": "Whenever an operation changes the manifest, the fixity block or a version's logical state, the inventory is flagged as modified (so it is written at the end of the session).", "quantifier": "all inventories and operations", "why_tests_cant": "all combinations of duplicate/update/fixity cases have to be covered", "anchors": ["pkg/ocfl/inventorybase.go:InventoryBase.AddFile", "pkg/ocfl/inventorybase.go:InventoryBase.CopyFile", "pkg/ocfl/inventorybase.go:InventoryBase.DeleteFile", "pkg/ocfl/objectbase.go:ObjectBase.EndUpdate"]}
{"id": "C20", "title": "Version listing is complete and ordered", "statement": "For every well-formed inventory the version listing contains every version exactly once, in ascending numeric order, independent of map order.", "quantifier": "all well-formed inventories, every map iteration order", "why_tests_cant": "lexicographic and numeric order diverge only from v10 on; map order is random", "anchors": ["pkg/ocfl/inventorybase.go:InventoryBase.GetVersionStrings", "pkg/ocfl/inventorybase.go:InventoryBase.VersionLessOrEqual"]}
{"id": "C21", "title": "Crash before the root inventory is replaced is harmless", "statement": "If an update is interrupted at any point before the root inventory file is written, the root inventory, its sidecar and every file of every earlier version are byte-identical to before, so the object still loads and shows the old versions.", "quantifier": "all objects, all update sessions, every crash point", "why_tests_cant": "the crash point ranges over every prefix of an unbounded write sequence", "anchors": ["pkg/ocfl/objectbase.go:ObjectBase.addReader", "pkg/ocfl/objectbase.go:ObjectBase.EndUpdate", "pkg/ocfl/objectbase.go:ObjectBase.StoreInventory", "pkg/ocfl/objectbase.go:ObjectBase.Close"]}
{"id": "C22", "title": "Every crash point leaves a loadable object", "statement": "At every crash point of an update session the object can still be loaded, showing either the old or the new version list.", "quantifier": "all objects, all update sessions, every crash point", "why_tests_cant": "the crash point ranges over every prefix of an unbounded write sequence", "anchors": ["pkg/ocfl/objectbase.go:ObjectBase.StoreInventory", "pkg/ocfl/objectbase.go:ObjectBase.LoadInventory", "pkg/ocfl/objectbase.go:ObjectBase.Close"]}
{"id": "C23", "title": "A half-written inventory is never accepted silently", "statement": "Whenever root inventory and sidecar disagree (for instance after a crash between the two writes), loading reports a digest mismatch instead of accepting the inventory.", "quantifier": "all inventory bytes and sidecar contents", "why_tests_cant": "all byte contents", "anchors": ["pkg/ocfl/objectbase.go:ObjectBase.LoadInventory", "pkg/ocfl/objectbase.go:ObjectBase.StoreInventory"]}
{"id": "C24", "title": "Stored inventories load back", "statement": "After a completed session the root inventory and the head version's inventory are identical, both match their sidecars, and loading the object yields exactly the inventory that was in memory.", "quantifier": "all objects and sessions", "why_tests_cant": "all inventories", "anchors": ["pkg/ocfl/objectbase.go:ObjectBase.StoreInventory", "pkg/ocfl/objectbase.go:ObjectBase.LoadInventory"]}
{"id": "C25", "title": "Stored content matches its digest", "statement": "After a completed session every content path in the manifest exists as a file and hashes to the digest it is listed under.", "quantifier": "all objects whose old content was intact, all sessions", "why_tests_cant": "an invariant over unbounded session histories and arbitrary contents", "anchors": ["pkg/ocfl/objectbase.go:ObjectBase.addReader", "pkg/ocfl/objectbase.go:ObjectBase.AddFile", "pkg/ocfl/inventorybase.go:InventoryBase.AddFile"]}
{"id": "C26", "title": "A no-change update writes nothing", "statement": "A session that submits only unchanged files leaves the object's directory byte-identical.", "quantifier": "all objects and inputs, with and without duplicate checking", "why_tests_cant": "depends on the duplicate-check setting and the history", "anchors": ["pkg/ocfl/objectbase.go:ObjectBase.AddFile", "pkg/ocfl/objectbase.go:ObjectBase.EndUpdate", "pkg/ocfl/objectbase.go:ObjectBase.Close"]}
{"id": "C27", "title": "Extraction yields verified content only", "statement": "Whenever an extraction reports success, every file it wrote has content hashing to the digest recorded for that logical path in the requested version.", "quantifier": "all objects (including corrupted ones), all versions, every map order", "why_tests_cant": "corruption can be anywhere; contents are arbitrary", "anchors": ["pkg/ocfl/objectbase.go:ObjectBase.Extract", "pkg/ocfl/inventorybase.go:InventoryBase.IterateStateFiles"]}
{"id": "C28", "title": "Extraction is complete", "statement": "Whenever an extraction reports success, it wrote every logical path of the requested version that belongs to the requested area, each under its extraction name, and nothing else.", "quantifier": "all objects, versions, areas and path mappings, every map order", "why_tests_cant": "depends on which paths share a digest and which belong to the area", "anchors": ["pkg/ocfl/objectbase.go:ObjectBase.Extract"]}
{"id": "C29", "title": "Old versions extract identically forever", "statement": "Extracting version k gives the same files with the same content after any number of later update sessions as it did when k was the head.", "quantifier": "all objects, all k, all later session histories", "why_tests_cant": "composition of inventory, file-system and extraction behaviour over unbounded histories", "anchors": ["pkg/ocfl/objectbase.go:ObjectBase.Extract", "pkg/ocfl/objectbase.go:ObjectBase.addReader", "pkg/ocfl/inventorybase.go:InventoryBase.NewVersion"]}
{"id": "C30", "title": "Extraction manifest is exact", "statement": "With manifest output enabled, a successful extraction writes a manifest listing exactly the extracted files with their digests.", "quantifier": "all objects and versions", "why_tests_cant": "sets of files are unbounded", "anchors": ["pkg/ocfl/objectbase.go:ObjectBase.Extract"]}
{"id": "C31", "title": "Version selector", "statement": "An empty or 'latest' selector means the head; any other selector must name an existing version, otherwise the operation fails and nothing is written.", "quantifier": "all inventories and selectors", "why_tests_cant": "all strings", "anchors": ["pkg/ocfl/inventorybase.go:InventoryBase.IterateStateFiles", "pkg/ocfl/inventorybase.go:InventoryBase.GetStateFiles"]}
{"id": "C32", "title": "Content-subpath mapping round-trips", "statement": "With the content-subpath extension, a file added to an area and extracted from the same area comes back under its original clean relative path.", "quantifier": "all area configurations, areas and clean relative paths", "why_tests_cant": "all strings; prefix stripping has separator corner cases", "anchors": ["pkg/extension/NNNN-content-subpath.go:ContentSubPath.BuildObjectStatePath", "pkg/extension/NNNN-content-subpath.go:ContentSubPath.BuildObjectExtractPath"]}
{"id": "C33", "title": "Areas are isolated", "statement": "Extracting one area never yields files that were added to another area whose path is not inside it.", "quantifier": "all area configurations and paths", "why_tests_cant": "all strings; one area's name may be a textual prefix of another's", "anchors": ["pkg/extension/NNNN-content-subpath.go:ContentSubPath.BuildObjectExtractPath"]}
{"id": "C34", "title": "Version sequence validation is exact", "statement": "Validation reports a version-sequence error exactly when the set of version numbers is not 1..n for some n.", "quantifier": "all inventories with parseable version names, every map order", "why_tests_cant": "unbounded sets of versions", "anchors": ["pkg/ocfl/inventorybase.go:InventoryBase.checkVersions"]}
{"id": "C35", "title": "Head validation is exact", "statement": "For inventories whose version names are all valid and uniformly padded, validation reports a head error exactly when the head is not the highest version.", "quantifier": "all inventories with valid version names, every map order", "why_tests_cant": "unbounded sets of versions", "anchors": ["pkg/ocfl/inventorybase.go:InventoryBase.checkVersions"]}
{"id": "C36", "title": "Digest reference validation is exact", "statement": "Validation reports a state-digest error exactly when some version references a digest missing from the manifest, and an unreferenced-digest error exactly when a manifest digest is used by no version.", "quantifier": "all inventories, every map order", "why_tests_cant": "unbounded inventories", "anchors": ["pkg/ocfl/inventorybase.go:InventoryBase.checkVersions", "pkg/ocfl/inventorybase.go:InventoryBase.checkManifest"]}
{"id": "C37", "title": "Logical path conflicts are detected", "statement": "Validation reports a conflict exactly when in some version one logical path is a directory prefix of another.", "quantifier": "all inventories", "why_tests_cant": "only certain neighbours in the sort order expose the error", "anchors": ["pkg/ocfl/inventorybase.go:InventoryBase.checkVersions"]}
{"id": "C38", "title": "Content path conflicts are detected", "statement": "Validation reports a conflict exactly when one content path in the manifest equals or is a directory prefix of another.", "quantifier": "all inventories", "why_tests_cant": "only certain neighbours in the sort order expose the error", "anchors": ["pkg/ocfl/inventorybase.go:InventoryBase.checkManifest"]}
{"id": "C39", "title": "Accepted paths are safe", "statement": "An inventory accepted without path errors has only relative logical and content paths without empty, '.' or '..' segments; every other path is reported.", "quantifier": "all inventories and path strings", "why_tests_cant": "all strings", "anchors": ["pkg/ocfl/inventorybase.go:InventoryBase.checkVersions", "pkg/ocfl/inventorybase.go:InventoryBase.checkManifest", "pkg/ocfl/inventorybase.go:InventoryBase.checkFixity"]}
{"id": "C40", "title": "Validation never crashes", "statement": "Validating an inventory terminates with findings and never with a crash, whatever the decoded inventory contains.", "quantifier": "all decoded inventories", "why_tests_cant": "all inputs", "anchors": ["pkg/ocfl/inventorybase.go:InventoryBase.checkManifest", "pkg/ocfl/inventorybase.go:InventoryBase.checkVersions", "pkg/ocfl/inventorybase.go:InventoryBase.checkFixity", "pkg/ocfl/objectbase.go:ObjectBase.checkFilesAndVersions"]}
{"id": "C41", "title": "Content fixity check is exact", "statement": "Comparing an inventory with the digests of the files found reports no error exactly when every manifest entry and every fixity entry names a file with that digest.", "quantifier": "all inventories and all sets of file digests, every map order", "why_tests_cant": "unbounded sets of files", "anchors": ["pkg/ocfl/inventorybase.go:InventoryBase.CheckFiles"]}
{"id": "C42", "title": "Version state comparison", "statement": "Two version states are judged equal exactly when they map the same logical paths to the same digests.", "quantifier": "all pairs of version states", "why_tests_cant": "all pairs of maps", "anchors": ["pkg/ocfl/inventorytypes.go:Version.EqualState"]}
{"id": "C43", "title": "Inventory comparison", "statement": "Root and version inventories are judged equal exactly when type, head, content directory, manifest and all versions agree; a tampered manifest is never judged equal.", "quantifier": "all pairs of inventories", "why_tests_cant": "all pairs of maps", "anchors": ["pkg/ocfl/inventorybase.go:InventoryBase.isEqual"]}
{"id": "C44", "title": "Validation is deterministic", "statement": "The validation findings for an inventory do not depend on Go's random map iteration order.", "quantifier": "all inventories, all pairs of iteration orders", "why_tests_cant": "iteration order is random per run", "anchors": ["pkg/ocfl/inventorybase.go:InventoryBase.checkVersions", "pkg/ocfl/inventorybase.go:InventoryBase.checkManifest"]}
{"id": "C45", "title": "No finding is lost when the report is compacted", "statement": "Sorting and compacting the findings keeps, for every finding, one with the same object, code and description, and adds none.", "quantifier": "all lists of findings, every result of the (unstable) sort", "why_tests_cant": "the sort comparator is not a strict weak order, so any permutation has to be considered", "anchors": ["pkg/ocfl/validationerror.go:ValidationStatus.Compact", "pkg/ocfl/validationerror.go:validationSort"]}
{"id": "C46", "title": "Every error code resolves", "statement": "Looking up any error code for any specification version yields a finding carrying that code, or its documented fallback code for that version.", "quantifier": "all codes and versions", "why_tests_cant": "all strings", "anchors": ["pkg/ocfl/validationerror.go:GetValidationError"]}
{"id": "C47", "title": "0003 layout is collision-free", "statement": "The hash-and-id layout maps distinct object ids to distinct storage paths (if the hash has no collision on them), all inside the storage root, each path component bounded in length.", "quantifier": "all id byte strings and all configurations", "why_tests_cant": "all byte strings", "anchors": ["pkg/extension/0003-hash-and-id-n-tuple-storage-layout.go:escape", "pkg/extension/0003-hash-and-id-n-tuple-storage-layout.go:StorageLayoutHashAndIdNTuple.BuildStorageRootPath"]}
{"id": "C48", "title": "0004 layout is collision-free", "statement": "The hashed n-tuple layout maps ids to the same path only if their digests are equal, and the path is made of the configured tuples followed by the digest (or its rest).", "quantifier": "all ids and configurations accepted by the constructor", "why_tests_cant": "all strings and configurations", "anchors": ["pkg/extension/0004-hashed-n-tuple-storage-layout.go:StorageLayoutHashedNTuple.BuildStorageRootPath"]}
{"id": "C49", "title": "0006 layout omits exactly the prefix", "statement": "The flat-omit-prefix layout returns the part of the id after the last delimiter (the id itself if there is none), never empty; ids sharing a prefix stay distinct.", "quantifier": "all ids and delimiters", "why_tests_cant": "all strings", "anchors": ["pkg/extension/0006-flat-omit-prefix-storage-layout.go:FlatOmitPrefixStorageLayout.BuildStorageRootPath"]}
{"id": "C50", "title": "0007 layout is total and collision-free", "statement": "The n-tuple-omit-prefix layout returns, for every configuration accepted at construction and every id, a path of the configured number of tuples of the configured size followed by the prefix-free id; it never crashes.", "quantifier": "all ids and configurations", "why_tests_cant": "all strings and configurations", "anchors": ["pkg/extension/0007-n-tuple-omit-prefix-storage-layout.go:NTupleOmitPrefixStorageLayout.BuildStorageRootPath"]}
{"id": "C51", "title": "Pairtree encoding is reversible", "statement": "The pairtree layout maps distinct ids to distinct paths and only produces path components of at most the configured length.", "quantifier": "all ids and configurations", "why_tests_cant": "all strings", "anchors": ["pkg/extension/NNNN-pairtree-storage-layout.go:StorageLayoutPairTree.idEncode", "pkg/extension/NNNN-pairtree-storage-layout.go:StorageLayoutPairTree.BuildStorageRootPath"]}
{"id": "C52", "title": "Direct-clean UTF encoding is injective", "statement": "With UTF encoding enabled, the direct-clean layout maps distinct paths to distinct results (as documented), as long as no fallback is taken.", "quantifier": "all paths", "why_tests_cant": "all strings; the escape syntax overlaps with legal input", "anchors": ["pkg/extension/NNNN-direct-clean-path-layout.go:DirectClean.build", "pkg/extension/NNNN-direct-clean-path-layout.go:encodeUTFCode"]}
{"id": "C53", "title": "Direct-clean results are safe", "statement": "The direct-clean layout never yields an absolute path, an empty, '.' or '..' component, or a component or path longer than configured, in either mode and for every configuration.", "quantifier": "all paths and configurations", "why_tests_cant": "all strings", "anchors": ["pkg/extension/NNNN-direct-clean-path-layout.go:DirectClean.build", "pkg/extension/NNNN-direct-clean-path-layout.go:DirectClean.fallback"]}
{"id": "C54", "title": "Layout configuration survives a restart", "statement": "Writing an extension's configuration and loading it back yields the same mapping from ids to paths.", "quantifier": "all layout configurations and ids", "why_tests_cant": "all configurations", "anchors": ["pkg/extension/0003-hash-and-id-n-tuple-storage-layout.go:StorageLayoutHashAndIdNTuple.WriteConfig", "pkg/extension/0004-hashed-n-tuple-storage-layout.go:StorageLayoutHashedNTuple.WriteConfig", "pkg/extension/0006-flat-omit-prefix-storage-layout.go:FlatOmitPrefixStorageLayout.WriteConfig", "pkg/extension/0007-n-tuple-omit-prefix-storage-layout.go:NTupleOmitPrefixStorageLayout.WriteConfig"]}
{"id": "C55", "title": "Exclusion keeps exactly the best alternative", "statement": "After organising extensions, of every exclusion group at most one extension remains per hook, namely the present one listed first, and extensions not named in any group all remain.", "quantifier": "all extension lists, all exclusion configurations, every outcome of the unstable sort", "why_tests_cant": "all configurations and sort outcomes", "anchors": ["pkg/extension/NNNN-gocfl-extension-manager.go:GOCFLExtensionManager.excludeExtensions", "pkg/extension/NNNN-gocfl-extension-manager.go:GOCFLExtensionManager.organize"]}
{"id": "C56", "title": "Sort order is honoured", "statement": "After organising, extensions named in the sort list are ordered as listed and extensions not named come after all named ones (as documented); none is lost or duplicated.", "quantifier": "all extension lists and sort configurations, every outcome of the unstable sort", "why_tests_cant": "all configurations and sort outcomes", "anchors": ["pkg/extension/NNNN-gocfl-extension-manager.go:GOCFLExtensionManager.sortExtensions"]}
{"id": "C57", "title": "Object ids never share a folder silently", "statement": "Creating an object under an id whose storage path is already occupied by another object is refused, and opening an object by id returns an object with that id.", "quantifier": "all storage roots, layouts and pairs of ids", "why_tests_cant": "depends on colliding ids", "anchors": ["pkg/ocfl/storagerootbase.go:StorageRootBase.CreateObject", "pkg/ocfl/storagerootbase.go:StorageRootBase.LoadObjectByID", "pkg/ocfl/objectbase.go:ObjectBase.Init"]}
{"id": "C58", "title": "Every object is enumerated exactly once", "statement": "Listing the objects of a storage root yields every object folder exactly once and nothing inside an object, for any directory tree.", "quantifier": "all directory trees in which no object is nested in another", "why_tests_cant": "trees are unbounded", "anchors": ["pkg/ocfl/storagerootbase.go:StorageRootBase.GetObjectFolders"]}
{"id": "C59", "title": "Conformance declaration is recognised exactly", "statement": "A folder is recognised as carrying version x exactly when it has one declaration file for x with the exact required content; several, malformed or missing declarations give the corresponding error.", "quantifier": "all folder contents", "why_tests_cant": "all file names and contents", "anchors": ["pkg/ocfl/helper.go:getVersion"]}
{"id": "C60", "title": "Concurrent path building is safe", "statement": "Concurrent calls of the direct-clean layout for different paths return the same results as sequential calls.", "quantifier": "all interleavings of concurrent calls", "why_tests_cant": "interleavings", "anchors": ["pkg/extension/NNNN-direct-clean-path-layout.go:DirectClean.fallback"]}
{"id": "C61", "title": "Extension metadata files are found again", "statement": "Metadata an extension stores for a version is read back from the same place with the same settings, for each storage type and area configuration.", "quantifier": "all storage settings, area configurations and versions", "why_tests_cant": "all configurations", "anchors": ["pkg/ocfl/helper.go:WriteJsonL", "pkg/ocfl/helper.go:ReadJsonL"]}
{"id": "C62", "title": "Follow-up versions terminate", "statement": "Ending an update performs at most one automatic follow-up version per extension and always terminates.", "quantifier": "all objects and extension behaviours", "why_tests_cant": "recursion through extension callbacks", "anchors": ["pkg/ocfl/objectbase.go:ObjectBase.EndUpdate", "pkg/extension/NNNN-migration.go:Migration.NeedNewVersion", "pkg/extension/NNNN-migration.go:Migration.DoNewVersion"]}
{"id": "C63", "title": "Ingest streaming never blocks", "statement": "While a file is added, every stream extension receives the complete byte stream and the operation terminates, even if extensions stop reading early or fail.", "quantifier": "all file contents, all numbers and behaviours of stream extensions, all schedules", "why_tests_cant": "schedules are unbounded", "anchors": ["pkg/extension/NNNN-gocfl-extension-manager.go:GOCFLExtensionManager.StreamObject", "pkg/ocfl/objectbase.go:ObjectBase.addReader"]}
{"id": "C64", "title": "Portable file names", "statement": "Name cleaning for files returns names without forbidden characters, is idempotent, and never returns '.' or '..' components.", "quantifier": "all strings", "why_tests_cant": "all strings", "anchors": ["pkg/ocfl/helper.go:FixFilename", "pkg/ocfl/helper.go:CleanPath"]}
{"id": "C65", "title": "Submitted files survive area mirroring", "statement": "In a mirroring session, every file submitted in the session is still in the head state when the session ends, also when areas are begun and ended separately.", "quantifier": "all objects, all mirroring sessions with any sequence of additions and begin/end of areas", "why_tests_cant": "depends on the interleaving of area ends with the final mirror deletion over arbitrary submissions", "anchors": ["pkg/ocfl/objectbase.go:ObjectBase.BeginArea", "pkg/ocfl/objectbase.go:ObjectBase.EndArea", "pkg/ocfl/objectbase.go:ObjectBase.echoDelete", "pkg/ocfl/objectbase.go:ObjectBase.EndUpdate"]}
{"id": "C66", "title": "Extraction does not depend on map order", "statement": "Whether an extraction succeeds, the set of lines of the manifest it writes and the content of every extracted file do not depend on the order in which Go iterates the maps of the inventory, provided no two logical paths with different digests are mapped to one extraction name.", "quantifier": "all inventories, all source file systems, all extraction path mappings, all iteration orders of manifest, versions and states", "why_tests_cant": "Go randomises map iteration; a test run sees a few of the factorially many orders", "anchors": ["pkg/ocfl/inventorybase.go:InventoryBase.IterateStateFiles", "pkg/ocfl/objectbase.go:ObjectBase.Extract"]}
{"id": "C67", "title": "The printed verdict is right", "statement": "After compacting, 'no errors found' is printed exactly if no recorded finding carries an error code, whatever order sorting produces, and printing never crashes on findings recorded for objects and storage roots.", "quantifier": "all reports, all results of the (inconsistent) sort", "why_tests_cant": "the comparison function is not an ordering, so results of sorting long mixed reports depend on details of the algorithm", "anchors": ["gocfl/cmd/helper.go:showStatus", "pkg/ocfl/validationerror.go:ValidationStatus.Compact"]}
{"id": "C68", "title": "Each finding is reported once", "statement": "After compacting no finding (object, code, description) occurs twice.", "quantifier": "all reports", "why_tests_cant": "sorting with an inconsistent comparison function and concatenated keys; duplicates survive only for special combinations", "anchors": ["pkg/ocfl/validationerror.go:ValidationStatus.Compact", "pkg/ocfl/validationerror.go:validationSort"]}
{"id": "C69", "title": "Findings refer to the specification version of the object", "statement": "The error details attached to a finding are those of the OCFL version of the object or storage root it was recorded for.", "quantifier": "all codes, versions, descriptions and contexts", "why_tests_cant": "one combination per code and version; the loss of the version happens in every path", "anchors": ["pkg/ocfl/validationerror.go:ValidationError.AppendDescription", "pkg/ocfl/validationerror.go:ValidationError.DetailString"]}
{"id": "C70", "title": "Storage paths stay inside the storage root", "statement": "Every storage layout maps every non-empty object id to a relative path of ordinary components: not empty, not absolute, without '.' and '..'.", "quantifier": "all layouts, configurations accepted when loading, and object ids", "why_tests_cant": "ids and configurations are unbounded; hostile ids are exactly those no test lists", "anchors": ["pkg/extension/0002-flat-direct-storage-layout.go:StorageLayoutFlatDirect.BuildStorageRootPath", "pkg/extension/0003-hash-and-id-n-tuple-storage-layout.go:StorageLayoutHashAndIdNTuple.BuildStorageRootPath", "pkg/extension/0004-hashed-n-tuple-storage-layout.go:StorageLayoutHashedNTuple.BuildStorageRootPath", "pkg/extension/0006-flat-omit-prefix-storage-layout.go:FlatOmitPrefixStorageLayout.BuildStorageRootPath", "pkg/extension/0007-n-tuple-omit-prefix-storage-layout.go:NTupleOmitPrefixStorageLayout.BuildStorageRootPath"]}
{"id": "C71", "title": "The announced layout is the layout in use", "statement": "The extension named in ocfl_layout.json is the extension that computes the storage paths.", "quantifier": "all layouts and configurations", "why_tests_cant": "concerns every layout; other tools read the file, not this program's tests", "anchors": ["pkg/extension/NNNN-direct-clean-path-layout.go:DirectClean.WriteLayout", "pkg/extension/NNNN-pairtree-storage-layout.go:StorageLayoutPairTree.WriteLayout", "pkg/extension/pathdirect.go:PathDirect.WriteLayout"]}
{"id": "C72", "title": "A created object is found again under its id", "statement": "An object that was created and given a version in a complete session is opened again by its id, and the inventory opened is the one stored (up to fractions of seconds in time stamps).", "quantifier": "all storage roots, layouts (also failing ones), ids and sessions", "why_tests_cant": "depends on every layout failing or not for every id, and on all session contents", "anchors": ["pkg/ocfl/storagerootbase.go:StorageRootBase.CreateObject", "pkg/ocfl/storagerootbase.go:StorageRootBase.LoadObjectByID", "pkg/extension/NNNN-gocfl-extension-manager.go:GOCFLExtensionManager.BuildStorageRootPath"]}
{"id": "C73", "title": "Opening never invents an inventory", "statement": "An object that can be opened has a readable inventory.json, and id, head, versions, manifest and digest algorithm of the opened object are those of that file; an object folder without inventory cannot be opened.", "quantifier": "all object folders and file systems", "why_tests_cant": "the behaviour depends on the error values of the file system in use", "anchors": ["pkg/ocfl/objectbase.go:ObjectBase.LoadInventory", "pkg/ocfl/storagerootbase.go:StorageRootBase.LoadObjectByFolder"]}
{"id": "C74", "title": "Objects are never nested", "statement": "The folder of a newly created object neither is, nor contains, nor lies inside the folder of an object that exists already.", "quantifier": "all storage roots, layouts and ids", "why_tests_cant": "depends on pairs of ids and layouts", "anchors": ["pkg/ocfl/storagerootbase.go:StorageRootBase.CreateObject", "pkg/ocfl/objectbase.go:ObjectBase.Init"]}
{"id": "C75", "title": "Accepted objects hold exactly their content", "statement": "If validating an object folder comes to an end without errors, every content path of the manifest is a file whose digest is the one recorded, every file in the content directory of a version is in the manifest, every version has a folder, and apart from declarations, inventories, sidecars, logs and extensions there is nothing else in the object folder or directly in version folders.", "quantifier": "all object folders, inventories and file systems", "why_tests_cant": "a test corpus has a few damaged objects; the claim is about every file of every object", "anchors": ["pkg/ocfl/objectbase.go:ObjectBase.Check", "pkg/ocfl/objectbase.go:ObjectBase.checkFilesAndVersions", "pkg/ocfl/objectbase.go:ObjectBase.checkVersionFolder"]}
{"id": "C76", "title": "Validation of objects always reaches a verdict", "statement": "Validating any object folder comes to an end with a list of findings, however damaged the folder is.", "quantifier": "all object folders and file systems", "why_tests_cant": "fixture objects show only the damage somebody thought of", "anchors": ["pkg/ocfl/objectbase.go:ObjectBase.Check", "pkg/ocfl/objectbase.go:ObjectBase.checkFilesAndVersions"]}
{"id": "C77", "title": "Inventories of an accepted object agree", "statement": "In an object that validates, the inventory in each version folder has the id and digest algorithm of the root inventory, that version as head, exactly the versions up to it, with the same metadata and the same logical files with the same digests. The inventory of the head version is also of the same OCFL version, with the same content directory and the same content paths.", "quantifier": "all object folders, all versions of the object", "why_tests_cant": "depends on pairs of inventories", "anchors": ["pkg/ocfl/objectbase.go:ObjectBase.checkFilesAndVersions", "pkg/ocfl/inventorytypes.go:Version.EqualState", "pkg/ocfl/inventorytypes.go:Version.EqualMeta"]}
{"id": "C78", "title": "Tampering with content is noticed", "statement": "Two copies of an object with the same root inventory file that both validate hold the same content at the same paths, up to collisions of the digest algorithm; so after replacing, removing or adding content in an object that validated, validation fails or reports errors.", "quantifier": "all pairs of object folders with the same root inventory file", "why_tests_cant": "every possible change of every file is covered", "anchors": ["pkg/ocfl/objectbase.go:ObjectBase.checkFilesAndVersions", "pkg/ocfl/inventorybase.go:InventoryBase.CheckFiles"]}
{"id": "C79", "title": "Valid objects validate without error", "statement": "An object that is valid by the OCFL specification - one declaration, an inventory with its digest in the sidecar, versions v1 to vN, consistent version inventories, content files exactly as in the manifests and with their digests - gets no error finding from validation.", "quantifier": "all objects that are valid by the specification: all inventories, paths, contents, numbers of versions, paddings, content directory names, file systems and digest functions", "why_tests_cant": "The tests validate a handful of fixture objects; a false alarm needs an unusual but valid object (SHA-256, a version without new content, a content directory whose name starts like inventory.json), and the absence of false alarms is a statement about all valid objects.", "anchors": ["pkg/ocfl/objectbase.go:1011-1424", "pkg/ocfl/inventorybase.go:287-650", "pkg/ocfl/storagerootbase.go:472-487"]}
{"id": "C80", "title": "Objects written by the tool validate", "statement": "Whatever folder an object has after it was created and changed by any number of completed sessions - adding, copying, deleting, renaming, reloading the object before each - is a valid object by the OCFL specification, and validation of it finds no error.", "quantifier": "all identifiers, creation arguments, sequences of sessions, calls in them, contents, digest functions, inventory encodings that can be read back, map orders on reading", "why_tests_cant": "The tests create and check one object with fixed files; the claim ranges over all sequences of sessions, and it fails only for particular ones (a session that adds no new content leaves an object that the tool's own validation rejects on a local disk).", "anchors": ["pkg/ocfl/objectbase.go:336-482", "pkg/ocfl/objectbase.go:489-829", "pkg/ocfl/objectbase.go:1011-1424", "pkg/ocfl/inventorybase.go:651-1080"]}
{"id": "C81", "title": "An accepted storage root has only accepted objects", "statement": "If validation of a whole storage root comes to an end and reports no error, then the root has exactly one conformance declaration, of a supported version and with the right content, and every file outside of the root folder itself and its extensions folder belongs to an object folder which validation of that folder alone accepts and whose declared version is not newer than that of the root; in particular every object is accepted if none is nested in another one.", "quantifier": "all storage roots (directory trees, file contents), digest functions, inventory decodings, map orders", "why_tests_cant": "Which folders are visited depends on the shape of the whole tree; a test checks some trees, the claim excludes that any folder of any tree escapes validation.", "anchors": ["pkg/ocfl/storagerootbase.go:241-381", "pkg/ocfl/storagerootbase.go:419-519", "pkg/ocfl/storageroot.go:97-131", "gocfl/cmd/validate.go:110-150"]}
{"id": "C82", "title": "One damaged object does not keep validation from reporting the others", "statement": "Validation of a storage root comes to an end whatever state its declaration and its objects are in, and reports for each object all that validation of this object alone reports.", "quantifier": "all storage roots, digest functions, inventory decodings, map orders", "why_tests_cant": "The claim is about every combination of damaged and intact objects; it fails only if some object's check is aborted rather than reported.", "anchors": ["pkg/ocfl/storagerootbase.go:472-519", "gocfl/cmd/validate.go:110-150", "pkg/ocfl/storageroot.go:97-131"]}
{"id": "C83", "title": "The metadata of an object agrees with its inventory", "statement": "The metadata reported for an object names its identifier, digest algorithm, head and versions with their data; it lists exactly the content files of the manifest with all their content paths; a version has a logical path with a certain content exactly if the metadata says so; and the checksums reported for a file are exactly those the fixity block records for one of its content paths.", "quantifier": "all inventories whose digests resolve, all answers of extensions; all lives of objects", "why_tests_cant": "The report joins manifest, states and fixity block of arbitrary size; tests look at single objects.", "anchors": ["pkg/ocfl/objectbase.go:82-159", "pkg/ocfl/fixity.go:9-30", "pkg/ocfl/metadata.go:8-29"]}
{"id": "C84", "title": "The metadata of a storage root covers every object", "statement": "The metadata extracted from a storage root contains the metadata of each of its objects under the object's identifier, and nothing else.", "quantifier": "all storage roots without nested objects, digest functions, inventory decodings, answers of extensions", "why_tests_cant": "Quantifies over all trees and all combinations of objects in them, including two with the same identifier.", "anchors": ["pkg/ocfl/storagerootbase.go:608-631"]}
{"id": "C85", "title": "Extraction of a whole storage root extracts each object", "statement": "Extraction of a whole storage root without error leaves in the target, in the folder of each object, exactly the files that the extraction of this object alone gives for the version and area asked for.", "quantifier": "all storage roots without nested objects, versions, areas, path mappings of extensions", "why_tests_cant": "The claim covers all trees; that the writes for one object never reach the folder of another one depends on all pairs of folders.", "anchors": ["pkg/ocfl/storagerootbase.go:633-694", "pkg/ocfl/objectbase.go:986-1090"]}
{"id": "C86", "title": "Technical metadata stays readable", "statement": "Technical metadata of the indexer that can be read can still be read after a further session; what is reported for a content file was stored for one of its paths, and whatever was stored for a content file is reported unless replaced by another entry for the same content.", "quantifier": "all objects, sessions with safe names, histories with crashes, settings of the extension, compressions", "why_tests_cant": "Depends on every version of an object's history having its own file; tests add content in each version.", "anchors": ["pkg/extension/NNNN-indexer.go:226-311", "pkg/ocfl/helper.go:369-438"]}
{"id": "C87", "title": "Versions without changes are not stored", "statement": "Every version an update adds to an object differs from the version before it in some file. A version that was opened and not used is taken back, leaving the inventory as it was.", "quantifier": "for all inventories with gap-free versions, all update sessions with any calls and any automatic versions asked for by extensions", "why_tests_cant": "Whether an unused version is taken back depends on the modified mark carried across all calls and rounds of a session; a test sees one sequence.", "anchors": ["pkg/ocfl/inventorybase.go:1051-1070", "pkg/ocfl/inventorybase.go:755-778", "pkg/ocfl/objectbase.go:525-613"]}
{"id": "C88", "title": "The manifest lists each content path once", "statement": "If the manifest of an object lists each content path once, it still does after any update whose files get distinct content paths.", "quantifier": "for all inventories with gap-free versions, all sessions with any calls and any automatic versions", "why_tests_cant": "Repetitions arise from combinations of calls and names over a whole session; tests add one file under one name.", "anchors": ["pkg/ocfl/inventorybase.go:981-1048", "pkg/ocfl/objectbase.go:646-771"]}
{"id": "C89", "title": "Migration keeps every file", "statement": "After a migration, every file of the version before is still there under its name with its content, except that an original with strategy 'replace' is gone and one with strategy 'folder' is in its folder; and exactly the results are new.", "quantifier": "all objects, all sets of files to migrate in any order, all strategies, all commands and all file name patterns", "why_tests_cant": "names of results depend on patterns and on the names in the object", "anchors": ["pkg/extension/NNNN-migration.go:Migration.DoNewVersion", "pkg/subsystem/migration/helper.go:DoMigrate", "pkg/subsystem/migration/function.go:Function.GetDestinationName"]}
{"id": "C90", "title": "A file that is gone does not stop the migration", "statement": "If every file of the version before can be migrated, the update does not fail because of contents that are no longer part of the object's state.", "quantifier": "all objects and histories, all functions", "why_tests_cant": "depends on the history of the object", "anchors": ["pkg/extension/NNNN-migration.go:Migration.UpdateObjectAfter", "pkg/extension/NNNN-migration.go:Migration.DoNewVersion"]}
{"id": "C91", "title": "A file is migrated once", "statement": "Once a content was migrated, the records of the object name it, so that later updates do not migrate it again.", "quantifier": "all objects, all sets of files, all commands", "why_tests_cant": "depends on what the commands produce", "anchors": ["pkg/extension/NNNN-migration.go:Migration.GetMetadata", "pkg/extension/NNNN-migration.go:Migration.alreadyMigrated"]}
{"id": "C92", "title": "Direct-clean removes the characters it says it removes", "statement": "No result of the direct-clean layout contains a control character, one of the listed punctuation characters or (with UTF encoding) white space, other than those in the configured replacement strings and fallback folder; without UTF encoding no name begins with a hyphen, a tilde or white space or ends with white space.", "quantifier": "all paths and configurations", "why_tests_cant": "all strings", "anchors": ["pkg/extension/NNNN-direct-clean-path-layout.go:DirectClean.build", "docs/NNNN-direct-clean-path-layout.md:Procedure"]}
{"id": "C93", "title": "The direct-clean fallback is the documented one", "statement": "A path with a name or a result that is too long is stored below the fallback folder, in the sub folders taken from the digest of the path and under the digest, as the documentation describes.", "quantifier": "all paths, configurations and digests", "why_tests_cant": "all configurations of the sub folders", "anchors": ["pkg/extension/NNNN-direct-clean-path-layout.go:DirectClean.fallback", "docs/NNNN-direct-clean-path-layout.md:Fallback function"]}
{"id": "C94", "title": "add never changes a file that is already there", "statement": "ObjectExists answers true exactly if some file lies in the id's folder. The command add leaves every file of the storage root as it is, also when it fails or is interrupted at any point; if it succeeds ObjectExists is true afterwards, and adding the same id again changes nothing. The command update changes nothing outside the folder of its id and creates nothing if that folder has no files.", "quantifier": "For all storage roots, layouts, ids, object states and contents to add, and every interruption.", "why_tests_cant": "Tests add to a few storage roots; whether some other file can be hit depends on all layouts, ids and interruption points.", "anchors": ["gocfl/cmd/helper.go:305-361", "gocfl/cmd/add.go:278-304", "gocfl/cmd/update.go:249-280", "pkg/ocfl/storagerootbase.go:260-280"]}
{"id": "C95", "title": "update changes the object with that id", "statement": "If the command update changes anything in a storage root that the tool wrote, the inventory in the folder it changes has the id given to the command.", "quantifier": "For all storage roots written by the tool, layouts, ids and contents.", "why_tests_cant": "Tests use ids with folders of their own; layouts that map several ids to one folder show it only for special pairs of ids.", "anchors": ["gocfl/cmd/update.go:249-280", "gocfl/cmd/helper.go:305-361", "pkg/ocfl/storagerootbase.go:383-389"]}
{"id": "C96", "title": "Extensions survive a restart", "statement": "The extensions loaded without error from a configuration folder, stored with a new object or storage root and loaded from there again, are the same: the same extensions in the same order with the same state, under a manager with the same rules for sorting and exclusion.", "quantifier": "For all configuration folders, extensions, manager rules, and file systems with or without empty folders.", "why_tests_cant": "Depends on the combination of folder names, configured names and rules; tests load one configuration and do not compare across a restart.", "anchors": ["pkg/ocfl/extensionFactory.go:78-212", "pkg/extension/initial.go:82-88", "pkg/extension/NNNN-gocfl-extension-manager.go:111-185", "pkg/extension/NNNN-gocfl-extension-manager.go:290-312", "data/scicoreextensions/storageroot/initial/config.json"]}
{"id": "C97", "title": "An unknown extension does not stop the tool", "statement": "A folder in extensions whose extension is not supported (or whose configuration cannot be read) changes nothing about the extensions that are loaded.", "quantifier": "For all extension folders and positions of the unsupported one.", "why_tests_cant": "Tests use supported extensions; the claim is about every configuration and about crashes.", "anchors": ["pkg/ocfl/extensionFactory.go:84-99", "pkg/ocfl/storageroot.go:116", "pkg/ocfl/storageroot.go:152"]}
{"id": "C98", "title": "A thumbnail never replaces another", "statement": "Thumbnails kept in the folder of the thumbnail extension: after any mix of files streamed and other calls in a session, and after UpdateObjectAfter (also one that stopped half way), each file recorded as having a thumbnail has one in a file of its own, whose content is a thumbnail of that file; two records never name one file, thumbnails of different versions have different names, and making them never panics.", "quantifier": "all configurations with storage type extension, all random numbers rand.Intn(64) may give, all sequences of streamed files and other calls, all objects, any map order", "why_tests_cant": "Names depend on a random number and on a counter over a whole session; a test sees a few draws.", "anchors": ["pkg/extension/NNNN-thumbnail.go:180-229", "pkg/extension/NNNN-thumbnail.go:231-276", "pkg/extension/NNNN-thumbnail.go:282-411", "pkg/extension/NNNN-thumbnail_native.go:23-109"]}
{"id": "C99", "title": "A thumbnail reported is there", "statement": "After an update the metadata of the object can be read; for each file reported as having a thumbnail the file name reported leads to a thumbnail of it; and a file with a record is not handled again.", "quantifier": "all objects, configurations, storage types, functions and files", "why_tests_cant": "Needs write and read path of every storage type together, for failed commands and for inventories of other programs.", "anchors": ["pkg/extension/NNNN-thumbnail.go:413-513", "pkg/extension/NNNN-thumbnail.go:180-229", "pkg/extension/NNNN-thumbnail.go:300-389"]}
{"id": "C100", "title": "A thumbnail stored is recorded", "statement": "A thumbnail made while a file is added is recorded for that file at the end of the update, and no second one is made for it.", "quantifier": "all objects, content directories, path extensions and files", "why_tests_cant": "The link between stream and record is a name built from the logical path; tests use the default content directory.", "anchors": ["pkg/extension/NNNN-thumbnail_native.go:39", "pkg/extension/NNNN-thumbnail.go:300-309"]}
{"id": "C101", "title": "Thumbnails fit the configured size", "statement": "A thumbnail made while a file is added is at most as wide and as high as configured.", "quantifier": "all picture sizes and all configured sizes", "why_tests_cant": "The error is in integer rounding of proportions; square or very wide test pictures do not show it.", "anchors": ["pkg/extension/NNNN-thumbnail_native.go:54-62"]}
{"id": "C102", "title": "Metadata given with an update is reported", "statement": "With the metafile extension, metadata given with an update is reported by GetMetadata afterwards, by the same process and by every other one, and after later updates without metadata.", "quantifier": "all objects, configurations of the extension and of content-subpath, metadata documents, later histories", "why_tests_cant": "depends on how the storage settings, the content-subpath areas and the versions combine", "anchors": ["pkg/extension/NNNN-metafile.go:MetaFile.UpdateObjectBefore", "pkg/extension/NNNN-metafile.go:MetaFile.GetMetadata", "pkg/ocfl/helper.go:ReadFile"]}
{"id": "C103", "title": "The first version needs metadata", "statement": "An update that creates the first version of an object with the metafile extension fails if no metadata source is given; an update of an object with versions goes on without one.", "quantifier": "all objects, parameters", "why_tests_cant": "concerns a branch no execution reaches", "anchors": ["pkg/extension/NNNN-metafile.go:MetaFile.UpdateObjectBefore", "pkg/extension/NNNN-metafile.go:MetaFile.SetParams"]}
{"id": "C104", "title": "Only valid metadata is stored, once", "statement": "Whatever an update writes as metadata file is a document accepted by the configured schema, a refused document fails the update and leaves the object as it is, and in one update metadata is stored once even if extensions add versions.", "quantifier": "all objects, sources, schemas, documents", "why_tests_cant": "all documents, and all error paths", "anchors": ["pkg/extension/NNNN-metafile.go:MetaFile.UpdateObjectBefore"]}
{"id": "C105", "title": "Every object gets its own metadata", "statement": "If the source contains $ID, objects with different ids get their metadata from different files, and each of several objects updated by one process gets its own.", "quantifier": "all sources, all pairs of object ids", "why_tests_cant": "injectivity over all ids", "anchors": ["pkg/extension/NNNN-metafile.go:MetaFile.UpdateObjectBefore"]}
{"id": "C106", "title": "Folders are kept", "statement": "If the filesystem extension is set to keep folders (a file name for placeholders is configured), then after a successful update every folder met in the source, also an empty one, is present in the new version as a placeholder file at the logical path of the folder.", "quantifier": "all objects, source trees, areas, hash functions, configurations", "why_tests_cant": "trees of any shape and size, and any earlier content of the object (the first placeholder of an object takes a different code path from all later ones)", "anchors": ["pkg/extension/NNNN-filesystem.go:Filesystem.AddFileAfter", "pkg/ocfl/objectbase.go:ObjectBase.AddFolder", "pkg/ocfl/objectbase.go:ObjectBase.AddFile"]}
{"id": "C107", "title": "File system attributes are reported for the files they belong to", "statement": "What the filesystem extension reports about an object are exactly the recorded lines whose path is in the state of their version, under the digest of that file; and the attributes of every file and folder added by an update are reported, by the process that made the update and by every later one that has the object only.", "quantifier": "all objects, source trees, areas, hash functions, configurations", "why_tests_cant": "all states and all records; depends on what the object contained before", "anchors": ["pkg/extension/NNNN-filesystem.go:Filesystem.GetMetadata", "pkg/extension/NNNN-filesystem.go:Filesystem.AddFileAfter"]}
{"id": "C108", "title": "Recording does not make an update fail", "statement": "An extension that records lines about files (indexer, filesystem) ends every version of a process without error and stores for each version exactly the lines recorded in it.", "quantifier": "all sequences of versions made in one process, all numbers of records in each", "why_tests_cant": "needs several versions per process, some without records", "anchors": ["pkg/extension/NNNN-filesystem.go:Filesystem.UpdateObjectAfter", "pkg/extension/NNNN-indexer.go:Indexer.UpdateObjectAfter"]}
{"id": "C109", "title": "Updates without new content succeed", "statement": "If the technical metadata of an object can be read, then at the end of an update of it \u2014 also one that only removes, renames or copies files \u2014 the migration extension can read it again, so that the update can be finished.", "quantifier": "all objects, updates, configurations of indexer and migration", "why_tests_cant": "all updates and all histories", "anchors": ["pkg/extension/NNNN-migration.go:Migration.UpdateObjectAfter", "pkg/extension/NNNN-indexer.go:Indexer.GetMetadata"]}
{"id": "C110", "title": "Findings say what was found, and where", "statement": "Every finding that is recorded during validation carries the description and the place it was recorded with, up to blanks at the ends; and findings about different objects are different findings, so compacting never drops one object's finding in favour of another's.", "quantifier": "all codes, versions, descriptions, folders and ids", "why_tests_cant": "all texts, including ids and folders with quotes", "anchors": ["pkg/ocfl/objectbase.go:ObjectBase.addValidationError", "pkg/ocfl/storagerootbase.go:StorageRootBase.addValidationError", "pkg/ocfl/validationerror.go:ValidationError.AppendDescription", "pkg/ocfl/validationerror.go:ValidationError.AppendContext"]}
{"id": "C111", "title": "The direct-clean configuration means what is documented", "statement": "A configuration file for NNNN-direct-clean-path-layout with the documented parameters is read, and ids are mapped according to the documented meaning and defaults; files with the keys of older versions are read as before.", "quantifier": "all configuration files and ids", "why_tests_cant": "all combinations of parameters given and left out, all ids", "anchors": ["pkg/extension/NNNN-direct-clean-path-layout.go:NewDirectCleanFS", "pkg/extension/NNNN-direct-clean-path-layout.go:NewDirectClean", "docs/NNNN-direct-clean-path-layout.md"]}
{"id": "C112", "title": "Layout configurations of the OCFL catalogue are understood", "statement": "A configuration file for one of the layouts 0002, 0003, 0004, 0006, 0007 that is valid according to the OCFL catalogue, with parameters left out having the catalogue's defaults, is read with that meaning.", "quantifier": "all configuration files", "why_tests_cant": "all combinations of parameters given and left out", "anchors": ["pkg/extension/0003-hash-and-id-n-tuple-storage-layout.go:NewStorageLayoutHashAndIdNTuple", "pkg/extension/0004-hashed-n-tuple-storage-layout.go:NewStorageLayoutHashedNTuple", "pkg/extension/0007-n-tuple-omit-prefix-storage-layout.go:NewNTupleOmitPrefixStorageLayout"]}
{"id": "C113", "title": "What was put in comes out again", "statement": "After add has stored a folder with success, the object is opened by its id, and extracting its latest version into an empty folder gives exactly the files that were added, under their extraction names and with their content; after an update that adds further files, exactly these and those that were there before.", "quantifier": "For all storage roots, layouts, ids, digest algorithms, files, contents and extraction names.", "why_tests_cant": "It composes naming, deduplication, storing, reading back and extraction for every set of names and contents; tests use few files, and deduplication and content paths interact only for special sets of them.", "anchors": ["gocfl/cmd/add.go:278-304", "gocfl/cmd/update.go:249-280", "gocfl/cmd/helper.go:305-361", "pkg/ocfl/objectbase.go:1426-1492", "pkg/ocfl/objectbase.go:547-613"]}
{"id": "C114", "title": "Every folder named on the command line is taken in", "statement": "If `add` (for a new id) or `update` ends with exit status 0, exactly the files of the source folder and of the folders given as further arguments `area:folder` come out of the object when its latest version is extracted, each under the logical path of its area, besides what the object had; none of the named folders is left out.", "quantifier": "all command lines (source folder, any number of further arguments), all contents of the folders, all iteration orders of Go's map of areas, all storage roots, layouts, extraction names", "why_tests_cant": "Tests name one or two well-formed folders; whether an argument is dropped depends on the whole list of arguments and on how its entries are written, and the areas are visited in a random order.", "anchors": ["gocfl/cmd/root.go:106", "gocfl/cmd/add.go:223-235", "gocfl/cmd/update.go:180-192", "gocfl/cmd/helper.go:305-361"]}
{"id": "C115", "title": "Exit status and closing line can be trusted", "statement": "Exit status 0 of `add`, `update`, `validate` and `extract` means that the command did what it was asked for; `no errors found` means that nothing went wrong: after it `validate` of a storage root leaves every object accepted, and never appears after a content file of an accepted object was changed; `extraction done without errors` is printed exactly if the extraction was made into an empty folder without error.", "quantifier": "all storage roots, objects, contents, command lines and outcomes of opening and closing folders", "why_tests_cant": "Scripts rely on the exit status for failures nobody has tested; a test sees single failures.", "anchors": ["gocfl/cmd/add.go:278-308", "gocfl/cmd/update.go:164-173", "gocfl/cmd/update.go:249-281", "gocfl/cmd/validate.go:110-145", "gocfl/cmd/extract.go:159-182", "gocfl/cmd/helper.go:279-303"]}
{"id": "C116", "title": "A version is stored together with its METS and PREMIS documents", "statement": "When an update with the METS extension succeeds, a METS and a PREMIS document describing the new version have been written. With the storage types area and path they are files of the version, under the configured names, with the digests of the documents' bytes in the inventory, and no other file of the version changes.", "quantifier": "for all objects, configurations, areas, contents and previous versions", "why_tests_cant": "Whether documents are generated depends on every content path of the object and on the storage type; tests cover one layout, and both an early silent return and the wrong bytes under a name leave the exit code unchanged.", "anchors": ["pkg/extension/NNNN-mets.go:224-320", "pkg/extension/NNNN-mets.go:607-631", "pkg/extension/NNNN-mets.go:1288-1366"]}
{"id": "C117", "title": "The METS document lists exactly the files of the version", "statement": "Every file and descriptive section of the METS document names a logical path of the head version, or a content path, with its digest; every file of the version but the documents themselves and every content path of its contents is listed; a file is in the group of its area, schemas in the group of schemas, and in no other group, and files of the metadata area that are no schemas are in none.", "quantifier": "for all objects, areas, primary metadata settings and contents", "why_tests_cant": "Completeness depends on how contents are shared between files, areas and versions; a test fixes one sharing pattern.", "anchors": ["pkg/extension/NNNN-mets.go:380-852", "pkg/extension/NNNN-mets.go:854-1002"]}
{"id": "C118", "title": "Identifiers of the METS document are unique and its pointers resolve", "statement": "No identifier occurs twice among the sections, groups and files of the METS document; each pointer of its structural maps leads to one of them; every file and every section is reached by a structural map.", "quantifier": "for all objects, areas, primary metadata settings and contents, given that generated uuids differ", "why_tests_cant": "Collisions and dangling pointers need particular combinations of areas, folders and shared contents.", "anchors": ["pkg/extension/NNNN-mets.go:325-378", "pkg/extension/NNNN-mets.go:632-758", "pkg/extension/NNNN-mets.go:1070-1126"]}
{"id": "C119", "title": "The PREMIS document describes the files and their history", "statement": "The PREMIS document has one object for each file the METS document lists, under the same identifier, with its digest; a packing event for a file for each version that has it, with time and user of the version; migration events link source and outcome; each object an event links to is described.", "quantifier": "for all objects, histories, and reports of indexer and migration", "why_tests_cant": "The history is a function of all versions of the object; tests use short ones without renamed or shared contents.", "anchors": ["pkg/extension/NNNN-mets.go:417-500", "pkg/extension/NNNN-mets.go:587-606", "pkg/extension/NNNN-mets.go:756-841"]}
{"id": "C120", "title": "Checksums in the METS document are said to be of the right algorithm", "statement": "Each checksum in the METS document comes with the name of the algorithm it was computed with, for objects with a digest algorithm the METS schema has a name for; the checksum of the PREMIS document is that of its bytes.", "quantifier": "for all objects and digest algorithms", "why_tests_cant": "A wrong type does not make any generation or schema check fail for the default algorithm.", "anchors": ["pkg/extension/NNNN-mets.go:178-197", "pkg/extension/NNNN-mets.go:404-416", "pkg/extension/NNNN-mets.go:1068", "pkg/extension/NNNN-mets.go:1368-1395"]}
{"id": "C121", "title": "Fixity values are recorded for every content file", "statement": "An object created with further digest algorithms for fixity carries, after any number of sessions, for every content file listed in its manifest and every one of these algorithms other than the digest algorithm, the digest of the bytes on disk; it carries values of no other algorithm and for nothing but content files. A single session of any kind, completed or not, keeps complete fixity values complete.", "quantifier": "all objects created and changed by sessions (each session working on the object loaded anew), all algorithms, all content files; for the step: all inventories and sessions", "why_tests_cant": "The algorithms are not stored as such but found again as keys of the fixity block; whether a later session still computes all of them is a property of all histories.", "anchors": ["pkg/ocfl/inventorybase.go:112-117", "pkg/ocfl/inventorybase.go:157-161", "pkg/ocfl/inventorybase.go:981-1006", "pkg/ocfl/objectbase.go:646-711"]}
{"id": "C122", "title": "A failed add can be repeated", "statement": "After an add that ended with an error, adding the object again either ends with an error or stores the object as it would have been stored the first time.", "quantifier": "all storage roots, layouts, ids, arguments and sessions of both calls; all points at which the first one may be interrupted", "why_tests_cant": "Depends on what is on disk after every possible failure.", "anchors": ["gocfl/cmd/add.go:278-304", "pkg/ocfl/objectbase.go:425-482", "pkg/ocfl/storagerootbase.go:260-280"]}
{"id": "C123", "title": "The primary descriptive metadata is described as such", "statement": "If the METS configuration names a file as type:area:name (or type:name), the document describes the file at that place of the head version, with its digest, by a section of that type (OTHER with that name if METS does not know it), and describes no other file with a type.", "quantifier": "for all objects, areas, settings that name a clean relative path, and contents", "why_tests_cant": "The file is found by name in a Go map of contents, each with a list of names; which name is written depends on how contents are shared.", "anchors": ["pkg/extension/NNNN-mets.go:854-995", "pkg/extension/NNNN-mets.go:1368-1395"]}
{"id": "C124", "title": "A download is the file that was asked for", "statement": "Bytes the web display answers to a download request for an object and a checksum are those of a content file of that object listed under that checksum; they have that digest if the content on disk is intact.", "quantifier": "for all storage roots, extensions, and sequences of requests of all kinds, also handled at the same time in any order of steps; while objects get new versions between requests", "why_tests_cant": "The server keeps one object and its metadata in variables shared by all requests without a lock; the answer depends on the interleaving and on the requests before.", "anchors": ["gocfl/cmd/display/server.go:222-314", "gocfl/cmd/display/server.go:36-46"]}
{"id": "C125", "title": "What the web display keeps makes no difference", "statement": "Every answer of the web display is the one a server that was just started would give.", "quantifier": "for all sequences of requests of all kinds, all storage roots and extensions, and all changes of the files between requests", "why_tests_cant": "Depends on all sequences of earlier requests, including failed ones.", "anchors": ["gocfl/cmd/display/server.go:147-736"]}
{"id": "C126", "title": "The pages of a version and of the manifest list exactly the files", "statement": "The page of a version shows the id of the object asked for and exactly the files of that version with their digests; the page of the manifest all content files with their digests.", "quantifier": "for all objects, versions and sequences of requests, also handled at the same time", "why_tests_cant": "The page is built from maps of contents with lists of names; with requests at the same time object and metadata may be of different objects.", "anchors": ["gocfl/cmd/display/server.go:476-672"]}
{"id": "C127", "title": "Only files of the extension are given out", "statement": "A request for a file of an extension is answered with a file in the folder of that extension, of the object asked for.", "quantifier": "for all requests (ids, extension names and paths, also with dots), objects and storage roots; for the folder also requests at the same time", "why_tests_cant": "All names and paths an outsider may send.", "anchors": ["gocfl/cmd/display/server.go:147-220"]}
{"id": "C128", "title": "Links of the web display lead to their objects", "statement": "A link to an object (or one of its pages) in the web display, built from the object's id, is understood by the server as a request for the object with that id.", "quantifier": "for all ids that are not empty, as byte strings, and all pages", "why_tests_cant": "All byte strings: escaping, the router's choice between the raw and the decoded path, and unescaping must fit together.", "anchors": ["gocfl/cmd/display/server.go:74-75", "gocfl/cmd/display/server.go:117-123", "gocfl/cmd/display/server.go:680-693", "gocfl/cmd/display/server.go:734", "data/displaydata/templates/object.gohtml:102-107"]}
{"id": "C129", "title": "The report shows the folders of the object", "statement": "The tree in the report shows, read by its indents, every folder of every file of every version exactly once (with the files in the full report) and nothing else; indents and remaining columns of all lines add up to the same width, which is the greatest depth.", "quantifier": "for all objects, short and full report, all orders of the Go maps", "why_tests_cant": "The tree is built in the random order of maps and then flattened; the claim is about all trees.", "anchors": ["gocfl/cmd/display/server.go:990-1063"]}
{"id": "C130", "title": "The numbers in the report are those of the object", "statement": "The report counts all content files, adds up the sizes found by the indexer, counts the contents of each media type and format, and the contents for which no size was recorded.", "quantifier": "for all objects, all that extensions report, all orders of the Go maps", "why_tests_cant": "Sums and counters over maps in random order.", "anchors": ["gocfl/cmd/display/server.go:749-803", "gocfl/cmd/display/server.go:853-913"]}
{"id": "C131", "title": "The report shows the current descriptive metadata", "statement": "The descriptive metadata in the report are those of the metadata file in the head version.", "quantifier": "for all objects, metadata files, content folders and orders of the Go map of versions", "why_tests_cant": "The file is looked for in all versions in random order.", "anchors": ["gocfl/cmd/display/server.go:918-980"]}
{"id": "C132", "title": "A storage root made by init is opened as it was asked for", "statement": "`init` refuses a folder that is not empty, without changing it. In an empty folder it makes a storage root that can be opened, with the version asked for and the same extensions with the same rules; validation finds nothing in it and there is no object in it.", "quantifier": "for all configurations of extensions, versions, documents, and file systems with or without folders", "why_tests_cant": "The second session sees only the files of the first; the set of configurations is unbounded.", "anchors": ["pkg/ocfl/storageroot.go:83-131", "pkg/ocfl/storagerootbase.go:82-187", "pkg/extension/NNNN-gocfl-extension-manager.go:156-185", "pkg/extension/NNNN-gocfl-extension-manager.go:290-322"]}
{"id": "C133", "title": "An interrupted init is not taken for a storage root", "statement": "What an interrupted `init` leaves cannot be opened, or it is opened as the storage root that was asked for.", "quantifier": "for all configurations and all points of interruption, also in the middle of a file", "why_tests_cant": "Points of interruption and torn files cannot be enumerated by tests.", "anchors": ["pkg/ocfl/storagerootbase.go:82-143", "pkg/ocfl/storageroot.go:97-131", "pkg/ocfl/extensionFactory.go:78-180"]}
{"id": "C134", "title": "Commands working on different objects do not disturb each other", "statement": "If any number of `add` and `update` commands work on different objects of one storage root at the same time, then whatever the order of their steps each object is in the end as if its command had worked alone, each command reports what it would have reported alone, nothing else is changed, and no command waits for another.", "quantifier": "for all storage roots, layouts, commands and interleavings of their reads and writes, writes possibly in pieces", "why_tests_cant": "The number of interleavings is unbounded.", "anchors": ["gocfl/cmd/helper.go:305-361", "gocfl/cmd/add.go:278-304", "gocfl/cmd/update.go:249-280", "pkg/ocfl/storagerootbase.go:260-413"]}
{"id": "C135", "title": "Commands working on one object at the same time leave it as if one had worked after the other", "statement": "If two commands change one object at the same time and both report success, the object is in the end as if one command had worked after the other; in particular no change that was reported as successful is lost.", "quantifier": "for all objects, commands and interleavings", "why_tests_cant": "The number of interleavings is unbounded, and the harmful ones are rare.", "anchors": ["gocfl/cmd/helper.go:305-361", "pkg/ocfl/objectbase.go:336-415", "pkg/ocfl/objectbase.go:525-613"]}
{"id": "C136", "title": "Extracting an object while it is being updated gives the state before or after", "statement": "If an object is extracted while an update is at work on it, and possibly further updates follow before the extraction ends, the extraction is exactly the one before the update or exactly the one after it; versions that existed before are extracted as if no update had happened.", "quantifier": "for all objects, update sessions, moments at which inventory, sidecar and each content file are read, and later histories", "why_tests_cant": "The moments of the reads range over all interleavings with an unbounded sequence of writes.", "anchors": ["pkg/ocfl/objectbase.go:237-334", "pkg/ocfl/objectbase.go:336-415", "pkg/ocfl/objectbase.go:1426-1492", "pkg/ocfl/inventorybase.go:252-273"]}
{"id": "C137", "title": "An inventory that has been written is read back", "statement": "Loading the inventory.json that the program has written gives the inventory with all its contents: every id, path, message and name character by character, whatever characters occur in it. (Holds for strings that are UTF-8 and exactly for those: bytes that are no UTF-8, which file names can contain, are replaced when the file is written, and two different names can become one.)", "quantifier": "all inventories with any strings (quotation marks, control characters, any Unicode character), any maps, with and without content directory and fixity; for single strings all byte sequences", "why_tests_cant": "Tests write and read a few inventories with plain names; the interplay of escaping, indentation, sorting, parsing and unescaping for every character and every nesting of maps needs a proof over the text.", "anchors": ["pkg/ocfl/objectbase.go:237-280", "pkg/ocfl/objectbase.go:349", "pkg/ocfl/inventorytypes.go:23-232", "pkg/ocfl/inventorybase.go:29-36"]}
{"id": "C138", "title": "A part of an inventory file is no inventory", "statement": "If the writing of inventory.json is interrupted after any number of bytes, what is there cannot be read as an inventory: loading the object fails, it never yields an inventory with fewer files or versions. So an interrupted session leaves the object as it was, unreadable, or as the session meant it.", "quantifier": "all inventories, all cuts; also all files of other programs that can be read and do not end with white space", "why_tests_cant": "A test can cut a few files at a few places; that no cut of any file is accepted is a statement about the grammar.", "anchors": ["pkg/ocfl/objectbase.go:237-280", "pkg/ocfl/objectbase.go:340-420"]}
{"id": "C139", "title": "Keys that are not specified are reported", "statement": "An inventory with a key that the specification does not define is reported by the validation (E102). (Does not hold: such members are ignored silently, and keys in another case, `Head` or `MANIFEST`, are taken for the specified ones.)", "quantifier": "all inventory files, all members, anywhere", "why_tests_cant": "That a member has no influence whatever its key, value and place is a statement about all files.", "anchors": ["pkg/ocfl/objectbase.go:262-277", "pkg/ocfl/validationerror1_1.go:110"]}
{"id": "C140", "title": "What is given on the command line is used", "statement": "An option given on the command line is what the command works with, whatever the configuration file says: texts, switches, parameters of extensions, fixity algorithms. (Holds for texts and fixity algorithms. Does not hold for parameters of extensions, where the file goes first, and for switches given as off.)", "quantifier": "all commands, options, values, configuration files", "why_tests_cant": "Each option is read by code of its own; a test tries a few pairs of option and file.", "anchors": ["gocfl/cmd/root.go:120-192", "gocfl/cmd/add.go:52-99", "gocfl/cmd/update.go:52-84", "pkg/ocfl/extensionExternalParam.go:27-43"]}
{"id": "C141", "title": "What the configuration file says is used if nothing is given", "statement": "A setting in the configuration file is what the command works with if the option is not given on the command line. (Does not hold for six options that have a default of their own: the file is never used for them.)", "quantifier": "all commands, settings, configuration files", "why_tests_cant": "see C140", "anchors": ["gocfl/cmd/create.go:41", "gocfl/cmd/extract.go:37", "gocfl/cmd/extractmeta.go:36-37", "gocfl/cmd/display.go:47-48", "config/config.go:138-216"]}
{"id": "C142", "title": "Every option makes a difference", "statement": "No option a command accepts is without effect. (Does not hold: twelve are.)", "quantifier": "all commands, options, values, and everything else given", "why_tests_cant": "That an option never matters is a statement about all command lines.", "anchors": ["gocfl/cmd/create.go:39-58", "gocfl/cmd/update.go:39-50", "gocfl/cmd/init.go:31-36", "pkg/extension/NNNN-metafile.go:27-44"]}
{"id": "C143", "title": "Containers are encrypted if encryption is configured", "statement": "If the configuration asks for encryption, every command that writes a zip container writes it encrypted. (Holds for init and create. Does not hold for add and update, which write a plain container whatever is configured.)", "quantifier": "all configurations, command lines and paths", "why_tests_cant": "Which command hands which settings on is decided in each command; a test of one command says nothing about the others.", "anchors": ["gocfl/cmd/helper.go:208-274", "gocfl/cmd/add.go:194", "gocfl/cmd/update.go:152", "gocfl/cmd/create.go:150"]}
{"id": "C144", "title": "An object keeps the configuration of its extensions", "statement": "If no place of the primary descriptive metadata is given with a command, the place in the configuration of the object is used, and kept. (Does not hold: add, update and create replace it by what is given, be it nothing, and the configuration is stored again that way.)", "quantifier": "all objects, configurations, and sequences of commands", "why_tests_cant": "Needs the value over several commands with different settings.", "anchors": ["pkg/extension/NNNN-mets.go:138-170", "pkg/ocfl/extensionFactory.go:71", "gocfl/cmd/helper.go:165-175", "pkg/ocfl/objectbase.go:541"]}
{"id": "C145", "title": "The digest algorithm chosen for a storage root is used for its objects", "statement": "Objects added to a storage root have the digest algorithm chosen when it was made, unless another one is asked for. (Does not hold: the choice is not stored; add uses sha512 or what the file says for add.)", "quantifier": "all configurations and command lines", "why_tests_cant": "Needs two runs with all combinations of options and files.", "anchors": ["pkg/ocfl/storagerootbase.go:82-87", "pkg/ocfl/storagerootbase.go:143-195", "gocfl/cmd/add.go:269-276"]}
{"id": "C146", "title": "A storage root at an S3 address is reached by every command", "statement": "If S3 is configured, every command given an S3 address works on it. (Violated: the argument is first made an absolute path of the local disk, and only init and create pass the S3 configuration on.)", "quantifier": "all commands, configurations, current folders and addresses", "why_tests_cant": "see C143", "anchors": ["gocfl/cmd/helper.go:208-274", "pkg/ocfl/helper.go:87-131"]}
{"id": "C147", "title": "stat shows the versions and files of an object", "statement": "What `stat` prints about an object tells its versions with user, time and message, the logical paths of each, and the files they are stored in: objects that differ in these are shown differently. (Does not hold if a message, name or path has a line break, or a path begins with blanks: such text passes for a file.)", "quantifier": "all objects, selections including versions, states and manifest, file systems, extensions", "why_tests_cant": "Two different objects shown alike need texts no test would try.", "anchors": ["pkg/ocfl/objectbase.go:161-214", "pkg/ocfl/storagerootbase.go:521-611"]}
{"id": "C148", "title": "The heading of an object tells what its labels say", "statement": "For each object `stat` tells its path, its head, its fixity algorithms, how many files are stored and how many contents there are. (All but the path: what is labelled `Path` is the digest algorithm.)", "quantifier": "all objects, selections, file systems", "why_tests_cant": "A label with the wrong value looks right unless compared for all objects.", "anchors": ["pkg/ocfl/objectbase.go:162-176"]}
{"id": "C149", "title": "The information asked for is shown", "statement": "`--stat-info` selects what is shown: each info asked for is shown, the others are not. (Does not hold: states are shown only together with versions, stored files only together with both, and three of the nine infos have no effect.)", "quantifier": "all selections, objects, storage roots", "why_tests_cant": "There are 512 selections; that an info has no effect is a statement about all of them.", "anchors": ["gocfl/cmd/stat.go:110-124", "pkg/ocfl/stat.go:5-27", "pkg/ocfl/objectbase.go:176-212", "pkg/ocfl/storagerootbase.go:528-587"]}
{"id": "C150", "title": "stat shows every object, and does not end with success otherwise", "statement": "`stat` of a storage root shows every object, and never crashes; if it cannot, the program does not end with success. (Does not hold: the first object that cannot be loaded ends the listing, with success; an object without inventory file or with an incomplete version of odd name crashes it.)", "quantifier": "all storage roots, objects, selections", "why_tests_cant": "Needs storage roots with one damaged object at any place.", "anchors": ["pkg/ocfl/storagerootbase.go:574-587", "pkg/ocfl/objectbase.go:171-182", "gocfl/cmd/stat.go:165-169"]}
{"id": "C151", "title": "A storage root stays usable when objects are added or updated", "statement": "A storage root that can be opened can be opened after an object was added or updated, with the same version and extensions, also if the command failed or was interrupted. (Does not hold if a layout puts an object into the folder `extensions`: the flat layout does so for ids that begin with `extensions/`.)", "quantifier": "all storage roots, extensions, layouts, objects, sessions, points of interruption", "why_tests_cant": "Needs an id a layout maps into the folder of the extensions, and opening the storage root afterwards.", "anchors": ["pkg/ocfl/storagerootbase.go:146-187", "pkg/ocfl/extensionFactory.go:70-130", "gocfl/cmd/helper.go:305-400"]}
{"id": "C152", "title": "Message, user and address given with a command are recorded in the new version", "statement": "`create`, `add` and `update` record in the new version the message, user name and user address given with the command and the time; the other versions keep theirs. (Does not hold for a text given as empty: `--message \"\"` records the message of the defaults.)", "quantifier": "all options, configuration files, objects, sessions, files", "why_tests_cant": "Unit tests do not run option parsing, session and reloading together; the exception needs an empty text.", "anchors": ["gocfl/cmd/create.go:245-257", "gocfl/cmd/add.go:288-301", "gocfl/cmd/update.go:259-272", "pkg/ocfl/inventorybase.go:712-760"]}
{"id": "C153", "title": "A create that failed can be repeated", "statement": "After a `create` that failed, the same or another `create` at that place does what it would have done at first. (Does not hold once anything was written: the storage root is made before the object is, and a place that is not empty is refused.)", "quantifier": "all storage roots, objects, arguments, sources, states of the place", "why_tests_cant": "Needs a failure in the middle of `create` and further commands after it.", "anchors": ["gocfl/cmd/create.go:180-261", "pkg/ocfl/storageroot.go:82-93", "pkg/ocfl/storagerootbase.go:82-144"]}
{"id": "C154", "title": "create makes the storage root and the object asked for", "statement": "A `create` that reports success has made, in an empty place, a storage root that opens with the version and extensions asked for, and the object: it opens, has one version with the data given, gives back the files of the source folders, has no errors at validation; no other files are made. (For layouts that keep objects out of the folder `extensions`, see C151.)", "quantifier": "all sources, arguments, extensions, layouts, environments", "why_tests_cant": "The whole command, from settings to extraction and validation, for all inputs.", "anchors": ["gocfl/cmd/create.go:115-261"]}
{"id": "C155", "title": "Validation of one object finds what validation of the storage root finds about it", "statement": "`validate --object-path` shows about an object what validation of the whole storage root shows about it; `validate --object-id` shows the same for the object with that id, and errors if there is none. (Does not hold for layouts that give two ids one folder: another object is validated, without complaint.)", "quantifier": "all storage roots, trees, layouts, ids, folders, environments", "why_tests_cant": "Needs the findings of two kinds of runs for every object of every storage root.", "anchors": ["pkg/ocfl/storagerootbase.go:312-379", "pkg/ocfl/storagerootbase.go:472-520", "gocfl/cmd/validate.go:116-146"]}
{"id": "C156", "title": "Metadata of one object is what the metadata of the storage root says about it", "statement": "`extractmeta` with a folder gives the entry of this object in the metadata of the whole storage root; with an id it gives the metadata of the object with that id. (Does not hold for layouts that give two ids one folder: the metadata of another object is given, under its own id.)", "quantifier": "all storage roots, trees, layouts, ids, folders, extensions", "why_tests_cant": "Needs the results of two kinds of runs for every object of every storage root.", "anchors": ["pkg/ocfl/storagerootbase.go:612-652"]}
{"id": "C157", "title": "Extraction of one object gives what extraction of the storage root puts into its folder", "statement": "`extract` with a folder writes, file by file, what extraction of the whole storage root writes below this folder; with an id it extracts the object with that id. (Does not hold for layouts that give two ids one folder: another object is extracted; for other areas than the default see C85.)", "quantifier": "all storage roots, trees, layouts, ids, folders, versions, path extensions", "why_tests_cant": "Needs the results of two kinds of runs for every object of every storage root.", "anchors": ["pkg/ocfl/storagerootbase.go:654-694"]}
{"id": "C158", "title": "The file extractmeta writes describes the objects", "statement": "After `extractmeta --output` with exit status 0 the file is a JSON document in which every object asked for is found under its id, with its versions (time, message, user), content files, logical names per version, checksums and what extensions report, and nothing else; it says what the inventories say. (Does not hold if an object cannot be read: nothing is written, and the exit status is 0 nevertheless.)", "quantifier": "all storage roots, objects, ids, texts (quotation marks, control characters, any valid UTF-8), extension data", "why_tests_cant": "The writer and a reader of the text, for all texts and maps; tests compare single values.", "anchors": ["gocfl/cmd/extractmeta.go:106-190", "pkg/ocfl/metadata.go:8-33", "pkg/ocfl/objectbase.go:82-159"]}
{"id": "C159", "title": "Standard output of extractmeta is a JSON document", "statement": "Without `--output` the standard output of `extractmeta` is the JSON document. (Never holds: the line `metadata extraction done without errors` and the findings follow. A reader that stops after the first value gets the document.)", "quantifier": "all metadata, findings, extension data", "why_tests_cant": "Any run shows the additional line; that the first value is the document needs all texts.", "anchors": ["gocfl/cmd/extractmeta.go:165-190", "gocfl/cmd/helper.go:278-303"]}
{"id": "C160", "title": "The page about a file says what is recorded", "statement": "The page of the web display about a content of an object shows the algorithm, all paths at which the content is stored, for each version just the names the content has there, and beside each name the file attributes recorded for it: after an update, those of the file in the source. (Fails if two files of the source get the same name: the content is that of the last one, the attributes shown are those of the first.)", "quantifier": "all storage roots, objects, contents, histories of requests answered one after the other; all updates and sources", "why_tests_cant": "What is kept between requests, which extension reports what, and the search among recorded lines combine for all objects and histories.", "anchors": ["gocfl/cmd/display/server.go:284-439", "pkg/extension/NNNN-filesystem.go:110-288", "pkg/ocfl/objectbase.go:82-159"]}
{"id": "C161", "title": "An update replaces what changed", "statement": "After an update with changed, unchanged and new files has reported success, the latest version comes out with the files of the update in place of what was there under their paths and with all other files as before (those outside the mirrored place, if the update mirrors), and the older versions have what they had. (Fails if a path that is there gets a content some other file has or had: with the search for duplicates the path is recorded with both contents.)", "quantifier": "all storage roots, layouts, objects, files, contents, paths and extraction names", "why_tests_cant": "Deduplication, the check for an update and the removal of the old entry interact for special combinations of contents and paths only, and the result must hold after storing, reading back and extraction.", "anchors": ["pkg/ocfl/inventorybase.go:791-901", "pkg/ocfl/inventorybase.go:966-1048", "pkg/ocfl/objectbase.go:853-974", "gocfl/cmd/update.go:249-280"]}
{"id": "C162", "title": "A storage root keeps what was put into it", "statement": "After any run of successful add and update commands, mirroring or not, for any objects, with anything else written outside their folders in between, each object opens under its id, is a valid object, and each version it ever had comes out with exactly the files that version was given. (Fails if an update gives a path that is there a content some other file has or had.)", "quantifier": "all runs of any length, storage roots, layouts, objects, files, contents; all versions and extraction names", "why_tests_cant": "The claim is about histories of any length over many objects; tests make two or three versions of one object.", "anchors": ["gocfl/cmd/add.go:278-304", "gocfl/cmd/update.go:249-280", "gocfl/cmd/helper.go:305-361", "pkg/ocfl/objectbase.go:1426-1492", "pkg/ocfl/inventorybase.go:966-1048"]}
{"id": "C163", "title": "A mirroring update makes the latest version the source folder", "statement": "After update --echo has reported success, the latest version comes out as exactly the files of the source folder, whatever was in the version before, and the older versions have what they had. (Fails if files were only removed from the folder: nothing is written and they stay.)", "quantifier": "all storage roots, layouts, objects, source folders, contents, paths and extraction names", "why_tests_cant": "The removal happens only in sessions in which something else changed, by the list of what was submitted; a test shows it for one folder.", "anchors": ["pkg/ocfl/objectbase.go:509-613", "pkg/ocfl/inventorybase.go:893-930", "gocfl/cmd/update.go:249-280"]}
{"id": "C164", "title": "An update that failed or was interrupted can be repeated", "statement": "If update fails or is interrupted, every object still opens and gives out every version it had; the next update does what it would have done, and its version comes out as asked for; an update interrupted after the root inventory counts as done. (Fails if the update is interrupted between the opening of the root inventory and its last byte; and the object is not valid as long as what was left is in the version folder.)", "quantifier": "all sequences of successful add and update commands, failed updates of any files and updates interrupted at any byte outside the root inventory, on all objects of a storage root; all layouts, contents, paths and extraction names", "why_tests_cant": "Every byte of every write is a place to be interrupted, and what is left stays through all later commands; a test tries a few of them.", "anchors": ["pkg/ocfl/objectbase.go:363-480", "pkg/ocfl/objectbase.go:522-610", "pkg/ocfl/storagerootbase.go:329-389", "gocfl/cmd/update.go:249-280"]}
{"id": "C165", "title": "Versions added by extensions leave a valid object", "statement": "A session in which extensions ask for further versions (migration), any number of them, leaves a valid object with these versions, and every earlier version, the user's own included, is recorded as if no extension had asked. (Fails if an extension fails in its version: the root inventory is not written and the user's version is lost.)", "quantifier": "for all objects, sessions, numbers of automated versions and calls made by extensions in them", "why_tests_cant": "EndUpdate calls itself; the number of versions and what extensions do in them is open, and all versions' inventories have to agree with the root inventory written once at the end", "anchors": ["pkg/ocfl/objectbase.go:567-613", "pkg/ocfl/objectbase.go:525-545", "pkg/extension/NNNN-migration.go:209"]}
{"id": "C166", "title": "The description of the folders is one file of every version", "statement": "With the content-subpath extension every version an update makes has a README.md describing the folders, and it is one file with one content. (Fails with two folders or more: they are described in the order Go ranges over a map, another one each time; when an update comes across an order used before, but not by the last update, README.md is recorded with both contents and the object is invalid.)", "quantifier": "for all objects, markdown writers, folders, orders, and any number of sessions, automated versions included, with any calls that leave the name README.md alone", "why_tests_cant": "the order of a Go map is random: a test sees one order, and the failure needs three updates with orders A, B, A; the positive part needs an invariant of all sessions", "anchors": ["pkg/extension/NNNN-content-subpath.go:145-163", "pkg/ocfl/objectbase.go:773-851", "pkg/ocfl/inventorybase.go:966-979"]}
{"id": "C167", "title": "Decrypting gives the data that was encrypted, or leaves the files alone", "statement": "The decryption tool puts out exactly the data that was encrypted; of a container that has been cut or changed it puts out only the beginning of the data and never reports success; a run that fails changes no file. (The last part fails: the output file is emptied before the container is read, so a damaged container costs the file that was there, and naming the container as the output too destroys it.)", "quantifier": "for all containers and key files, all data, all damage to the container, all authenticated streaming ciphers, all input and output names", "why_tests_cant": "damage can be anything, so no set of damaged containers settles it; the tool has no tests, and the loss needs a container that fails at a later segment", "anchors": ["decrypt/main.go:24-90"]}
{"id": "C168", "title": "The program configured for a format is the one taken", "statement": "For a file of a format the program is taken that the configuration names for this format — for thumbnails, if there is none, one for its media type — and the same every time; none is taken exactly if none is configured. (The second part fails: if two functions name the same format, the order of a Go map decides, anew for every file.)", "quantifier": "for all configurations, formats and media types, and all orders in which Go ranges over the functions", "why_tests_cant": "the order of a Go map is random, a test sees one; that nothing else is ever taken is a statement about all configurations", "anchors": ["pkg/subsystem/migration/helper.go:32-71", "pkg/subsystem/migration/migrate.go:93-102", "pkg/subsystem/thumbnail/helper.go:28-70", "pkg/subsystem/thumbnail/thumbnail.go:69-89", "pkg/extension/NNNN-thumbnail.go:322-328"]}
{"id": "C169", "title": "Conversion programs are called as configured", "statement": "A conversion program is called with the words of its configured command, in which the places for source, destination, background and size have been filled in and nothing else changed, and the source file it is given has the extension of the content file. (Fails for content files whose extension contains {destination}: the places are filled in one after the other, so the name of the source is changed too; and for extensions with an asterisk.)", "quantifier": "for all commands made of text and places, all names of content files and targets, all temporary folders and random numbers", "why_tests_cant": "names of content files come from depositors and can be anything; the failure needs a name that looks like a place of the command", "anchors": ["pkg/subsystem/migration/migrate.go:59-75", "pkg/subsystem/thumbnail/thumbnail.go:33-49", "pkg/subsystem/migration/helper.go:73-88", "pkg/extension/NNNN-migration.go:278-312"]}
{"id": "C170", "title": "An update does not crash", "statement": "Whatever is done during an update, by the user or by extensions, a problem is returned as an error; the program does not crash in the middle. (Fails: AddReader does not look at the error of BuildNames and uses the names it did not get; thumbnails or metadata configured for an area that is not there crash the update after files have been written. An inventory whose head is not among its versions crashes every update too.)", "quantifier": "for all inventories, all sessions with any calls, follow-up versions included, all extensions that report errors", "why_tests_cant": "absence of a crash is a statement about all sequences of calls and all states they lead to; the crash needs an extension misconfigured in a particular way", "anchors": ["pkg/ocfl/objectbase.go:736-771", "pkg/ocfl/objectbase.go:713-734", "pkg/ocfl/inventorybase.go:712-751", "pkg/ocfl/inventorybase.go:923-1070", "pkg/ocfl/objectbase.go:547-613"]}
{"id": "C171", "title": "Files come out of their version although extensions add versions", "statement": "An update in a storage whose extensions make versions of their own (as migration does) leaves a valid object that opens again; from the version of the update come out exactly its files, in place of what was there under their paths, and what was there besides; from each version before come out the files it had. (Fails if the extension fails: the version of the user is then not in the inventory.)", "quantifier": "for all objects the tool has made, all updates, all numbers of automated versions with any operations that succeed, all extraction names", "why_tests_cant": "it composes writing by several versions in one session, reading back by a later process and extraction, for arbitrary operations of extensions", "anchors": ["pkg/ocfl/objectbase.go:547-613", "pkg/ocfl/objectbase.go:713-900", "pkg/ocfl/objectbase.go:1399-1490", "pkg/ocfl/inventorybase.go:712-751"]}
{"id": "C172", "title": "A path on the command line means the place it means in the shell", "statement": "Every path argument of a command is turned into the absolute path, without detours, of the place it means for somebody working in the current folder; two arguments become the same path exactly if they mean the same place; a path that came out stays the same, in whatever folder it is given again.", "quantifier": "all current folders and all path arguments (on Unix, places as in a tree without symbolic links)", "why_tests_cant": "all ways to write a path: any number of '.', '..', double slashes, relative to any folder", "anchors": ["pkg/ocfl/helper.go:87-131", "gocfl/cmd/validate.go:44", "gocfl/cmd/add.go:114-119"]}
{"id": "C173", "title": "The metafile extension of an object stays loadable", "statement": "Whatever configuration of the metafile extension was accepted, the object made with it has the configuration and the schema with it: they are loaded from the object, the same after any number of updates with metadata, also if the address of the schema does not answer any more.", "quantifier": "all configurations with storage type extension, schemas, sequences of updates with any metadata, successful or not, all later answers of addresses", "why_tests_cant": "all configurations and sequences of updates; the failing names pass the checks of the code", "anchors": ["pkg/extension/NNNN-metafile.go:46-96", "pkg/extension/NNNN-metafile.go:154-173", "pkg/extension/NNNN-metafile.go:312-336"]}
{"id": "C174", "title": "The folders of different objects lie apart", "statement": "With every storage layout, objects with different ids (and different digests of them) have folders none of which is the other or lies inside it, so that no object can touch files of another.", "quantifier": "all layouts, configurations accepted when loading, and pairs of ids", "why_tests_cant": "all pairs of ids; nesting depends on both ids and the configuration", "anchors": ["pkg/extension/0002-flat-direct-storage-layout.go", "pkg/extension/0003-hash-and-id-n-tuple-storage-layout.go:138-161", "pkg/extension/0004-hashed-n-tuple-storage-layout.go:116-137", "pkg/extension/0006-flat-omit-prefix-storage-layout.go:117-123", "pkg/extension/0007-n-tuple-omit-prefix-storage-layout.go:137-190", "pkg/extension/NNNN-pairtree-storage-layout.go:140-190", "pkg/extension/NNNN-direct-clean-path-layout.go"]}
{"id": "C175", "title": "A storage root keeps what was put into it, also when extensions add versions", "statement": "After any run of successful add and update commands in which extensions (NeedNewVersion/DoNewVersion) may append versions of their own, every object opens under its id, is valid, and every version it ever had — those of the user and those of the extensions — comes out of extract with exactly the files it was given.", "quantifier": "all storage roots, objects, files, numbers of commands and of versions added by extensions", "why_tests_cant": "unbounded runs; each automated version is made from the inventory in memory, which is read back only at the next command", "anchors": ["pkg/ocfl/objectbase.go:547-613", "pkg/ocfl/objectbase.go:736-771", "pkg/ocfl/inventorybase.go:480-560", "gocfl/cmd/add.go", "gocfl/cmd/update.go"]}
{"id": "C176", "title": "Deduplication stores every content once; without it every file is stored by itself", "statement": "add and create with --deduplicate (or the setting in the configuration file), and update unless told not to, leave an object in which no two content files of the manifest have the same content, over any number of such sessions. Without deduplication every file given gets a content file of its own, which was not there before.", "quantifier": "all objects, files, contents, settings, numbers of sessions and versions added by extensions", "why_tests_cant": "the duplicate is looked up in the inventory in memory, across versions, areas and files of the same run; which switch is used differs between the commands", "anchors": ["pkg/ocfl/objectbase.go:853-950", "pkg/ocfl/inventorybase.go:770-800", "pkg/ocfl/inventorybase.go:981-1048", "gocfl/cmd/add.go:83-84", "gocfl/cmd/create.go:247", "gocfl/cmd/update.go:71-72"]}
{"id": "C177", "title": "What create is asked for is what the storage root and the object have", "statement": "If create succeeds, the storage root and the object are declared for the OCFL version given with --ocfl-version (1.1 without), the object has the digest algorithm given with --digest or in the configuration file, each content file is recorded in the manifest under its digest and in the fixity block under its value for each algorithm given with --fixity. create, add and update take the source folder in as the area given, and exactly update with echo removes what was not given again.", "quantifier": "all option values, configuration files, source folders, further areas, extensions and storage roots", "why_tests_cant": "options pass through viper defaults, the configuration file and five functions before they reach the files; only a chain over all of them shows that nothing is lost or exchanged", "anchors": ["gocfl/cmd/create.go:115-261", "gocfl/cmd/init.go:38-56", "gocfl/cmd/add.go:52-99", "gocfl/cmd/update.go:60-75", "pkg/ocfl/storagerootbase.go:391-413", "pkg/ocfl/objectbase.go:425-482"]}
{"id": "C178", "title": "The digest algorithm given decides for good whether the object validates", "statement": "Whatever digest algorithm create and add accept, validation of the object made finds no error.", "quantifier": "all digest algorithms known to the checksum package, all files and later updates", "why_tests_cant": "needs all histories of updates: the algorithm is fixed when the object is made and validated by another part of the code", "anchors": ["gocfl/cmd/create.go:115-261", "gocfl/cmd/init.go:38-56", "pkg/ocfl/inventorybase.go:323-334", "pkg/ocfl/objectbase.go:425-482"]}
{"id": "C179", "title": "Which configurations of the extension manager are taken", "statement": "A folder of extension configurations is loaded without error exactly if it has both initial and the extension manager and initial names that manager or none, or if it has neither. The manager then has the rules of its own folder, and the configuration of initial stored with new objects and storage roots names the manager.", "quantifier": "all extension folders in which each configuration lies in the folder with the name of its extension, with any further extensions, supported or not", "why_tests_cant": "the manager is found by a search over all extensions in any order, with the name it must have taken from one of them", "anchors": ["pkg/ocfl/extensionFactory.go:78-212", "pkg/extension/initial.go:27-84", "pkg/extension/NNNN-gocfl-extension-manager.go:290-312"]}
{"id": "C180", "title": "Objects are found by later commands, with the layouts read from the storage root", "statement": "After any run of init, create, add and update commands, each in a process of its own that opens the storage root and uses the layouts configured there, the next command opens the storage root and finds every object under its id, valid, and every version it ever had comes out with exactly the files it was given.", "quantifier": "all configurations of layouts, all sequences of commands (some failing or interrupted), ids, files and histories of any length", "why_tests_cant": "needs every configuration of layouts to be written, read back and compared as a function on all ids, over runs of commands of any length", "anchors": ["pkg/ocfl/storageroot.go:83-131", "pkg/ocfl/storagerootbase.go:82-187", "pkg/extension/NNNN-gocfl-extension-manager.go:111-152,254-322", "pkg/extension/0002-flat-direct-storage-layout.go:78-93", "pkg/extension/0003-hash-and-id-n-tuple-storage-layout.go:100-115", "pkg/extension/0004-hashed-n-tuple-storage-layout.go:99-114", "pkg/extension/0006-flat-omit-prefix-storage-layout.go:80-95", "gocfl/cmd/create.go:115-261", "gocfl/cmd/add.go:200-308", "gocfl/cmd/update.go:156-281"]}
{"id": "C181", "title": "An archive with the default configuration and URNs as ids", "statement": "With the storage root configuration that comes with the program, and ids made of letters, digits, hyphens, full stops and colons that begin with a letter or digit, have at most 127 characters and are not `extensions`: after any run of init, create, add and update commands, each in a process of its own and some adds failing or interrupted, the next command opens the storage root; every object lies in the folder named by its id with an underscore for each colon, is found under its id, is valid, and every version it ever had comes out with exactly the files it was given.", "quantifier": "all such ids, all sequences of commands, files and histories of any length", "why_tests_cant": "needs that no two of infinitely many ids share or nest folders, together with runs of commands of any length", "anchors": ["data/defaultextensions/storageroot", "pkg/extension/NNNN-direct-clean-path-layout.go:195-295", "pkg/extension/NNNN-gocfl-extension-manager.go:111-152,254-322", "pkg/ocfl/storagerootbase.go:82-187", "gocfl/cmd/create.go:115-261", "gocfl/cmd/add.go:200-308", "gocfl/cmd/update.go:156-281"]}
{"id": "C182", "title": "The versions of an object that validates are v1 to vN with one padding", "statement": "If validation of an object finds no error, the version names in its inventory are exactly those of 1 to N for some N, each once, all unpadded or all zero-padded to one width, and the head is the last. Conversely the checks of names, padding and sequence find nothing for such names, in whatever order they are met.", "quantifier": "all inventories and objects, any number of versions, any padding, any order of the map", "why_tests_cant": "the names form an infinite set, and the loop remembers the padding of the first name Go's random map order gives", "anchors": ["pkg/ocfl/inventorybase.go:134-156", "pkg/ocfl/inventorybase.go:287-288", "pkg/ocfl/inventorybase.go:452-488", "pkg/ocfl/inventorybase.go:553-585"]}
{"id": "C183", "title": "Exactly the valid inventories are accepted", "statement": "The checks of an inventory file on loading end without error exactly if the inventory is valid by the OCFL specification.", "quantifier": "all decoded inventory files, of any number of versions, digests and paths", "why_tests_cant": "both directions range over all inventories; tests show single files accepted or rejected", "anchors": ["pkg/ocfl/inventorybase.go:118-169", "pkg/ocfl/inventorybase.go:287-342", "pkg/ocfl/inventorybase.go:343-399", "pkg/ocfl/inventorybase.go:401-436", "pkg/ocfl/inventorybase.go:438-603"]}
{"id": "C184", "title": "Exactly which objects validate", "statement": "Validation of an object ends without error exactly if the folder meets a fixed list of conditions on its files, its root inventory and the inventories of its versions: every listed content file is in a version's folder and has its digest, every file in a content directory is listed, the inventories of the versions tell the same history, and so on. What lies in the object's logs and extensions folders makes no difference, nor does the state of the program.", "quantifier": "all storages, object folders and numbers of versions, files and digests; both directions", "why_tests_cant": "an exact description of acceptance ranges over all folders; tests show single objects accepted or rejected", "anchors": ["pkg/ocfl/objectbase.go:1267-1321", "pkg/ocfl/objectbase.go:1028-1265", "pkg/ocfl/objectbase.go:1333-1424"]}
{"id": "C185", "title": "Storage layouts do not crash", "statement": "A storage layout that was loaded from its configuration file gives every object id a storage path or reports an error; it never crashes.", "quantifier": "all configuration files of all eight layouts, all hash functions, all ids", "why_tests_cant": "which of the integers in a configuration lead to slices out of range is arithmetic over all sizes, numbers and digest lengths", "anchors": ["pkg/extension/0003-hash-and-id-n-tuple-storage-layout.go:138-161", "pkg/extension/0004-hashed-n-tuple-storage-layout.go:116-137", "pkg/extension/0007-n-tuple-omit-prefix-storage-layout.go:137-190", "pkg/extension/NNNN-pairtree-storage-layout.go:140-153", "pkg/extension/NNNN-direct-clean-path-layout.go:203-288"]}
{"id": "C186", "title": "Valid objects of other tools stay valid when updated", "statement": "Opening a valid OCFL object that any tool has written and changing it by sessions (add, update, delete, rename) leaves a valid object: the old versions and their inventories still agree with the new root inventory, and no file of an old version changes.", "quantifier": "all valid objects (any padding, content directory, fixity blocks, time stamps, missing inventories of old versions), all sequences of sessions with safe names", "why_tests_cant": "the objects other tools can write are unbounded; whether the rewritten history agrees with every stored inventory depends on every field of every version", "anchors": ["pkg/ocfl/inventorytypes.go:71-94", "pkg/ocfl/inventorytypes.go:144-154", "pkg/ocfl/objectbase.go:334-420", "pkg/ocfl/inventorybase.go:343-370"]}
{"id": "C187", "title": "A digest occurs once in the manifest, regardless of case", "statement": "Changing an object never leaves a manifest in which two digests differ only in upper and lower case, and content that is already stored under its digest in either case is not stored a second time.", "quantifier": "all inventories, all sequences of sessions, completed or interrupted", "why_tests_cant": "depends on the letters of every digest other tools may have written and on everything added later", "anchors": ["pkg/ocfl/inventorybase.go:343-366", "pkg/ocfl/inventorybase.go:981-1060"]}
{"id": "C188", "title": "An object that validates can be extracted", "statement": "If validation of an object reports no error, every version of it can be extracted: the extraction ends without error and every file of the version is written with the content of its digest.", "quantifier": "all objects, of this and of other tools, that validate without errors; all versions; all mappings of paths to extraction names", "why_tests_cant": "validation and extraction are separate pieces of code that must agree about every object of any tool", "anchors": ["pkg/ocfl/objectbase.go:1426-1492", "pkg/ocfl/inventorybase.go:252-273"]}
{"id": "C189", "title": "Damage to a file of an object is noticed", "statement": "If one file of an object that validates is lost, or its content changes so that its digests change with it, then validation reports an error. Only logs and extensions are excepted.", "quantifier": "all objects that validate, all files in them, all changed contents whose digests differ", "why_tests_cant": "a test damages a few files; the claim is about every file of every object and every way to change it", "anchors": ["pkg/ocfl/objectbase.go:1013-1408", "pkg/ocfl/inventorybase.go:605-651", "pkg/ocfl/helper.go:168-204"]}
{"id": "C190", "title": "A file put into an object from outside is noticed", "statement": "If a file is put into the folder of an object that validates, outside of logs and extensions, then validation reports an error.", "quantifier": "all objects that validate, all names and contents of the additional file", "why_tests_cant": "a test adds a few files; the claim is about every name at every place", "anchors": ["pkg/ocfl/objectbase.go:1013-1323", "pkg/ocfl/inventorybase.go:605-651", "pkg/ocfl/helper.go:168-204"]}
{"id": "C191", "title": "The verdict about an object does not depend on the storage", "statement": "An object with the same files gets the same verdict (errors or none) from validation whether it lies on a local disk or in an archive whose file system reports missing files with fs.ErrNotExist itself.", "quantifier": "all objects, all contents, all version histories", "why_tests_cant": "a test compares the verdicts for a few objects; the claim is about every object", "anchors": ["pkg/ocfl/objectbase.go:1013-1408", "pkg/ocfl/storagerootbase.go:472-487"]}
{"id": "C192", "title": "Metadata in YAML or TOML is stored as the same document in JSON", "statement": "Metadata the metafile extension reads from YAML or TOML is stored as JSON with the same values, keys and list lengths at every place, or refused; YAML is refused exactly if a key somewhere is not a string, TOML is stored as it is.", "quantifier": "all documents of any depth, all values, all configurations of the extension", "why_tests_cant": "a test converts a few documents; the claim is about documents of every shape and depth", "anchors": ["pkg/extension/NNNN-metafile.go:175-204", "pkg/extension/NNNN-metafile.go:264-310"]}
{"id": "C193", "title": "The version an object declares and the type of its inventory agree", "statement": "An object made in a storage root of any version the tool creates declares the version of the root and its inventory has the type of that version of the specification, after any number of updates; and an object that validates has an inventory of the type of the version it declares.", "quantifier": "all storage root versions, all objects, all update histories, all stored objects", "why_tests_cant": "a test creates an object of one version and validates a few objects; the claim is about every version and object", "anchors": ["pkg/ocfl/object.go:51-115", "pkg/ocfl/inventory.go:57-75", "pkg/ocfl/storageroot.go:44-66", "pkg/ocfl/storagerootbase.go:391-413", "pkg/ocfl/objectbase.go:222-275"]}
{"id": "C194", "title": "The n-tuple-omit-prefix layout works on characters", "statement": "For every id that is text, the layout 0007 removes everything up to the last delimiter, pads the rest with zeros to the length of the tuples in characters, reverses its characters if configured, and cuts it into tuples of tupleSize characters each, followed by the rest.", "quantifier": "all texts in any script, all delimiters, tuple sizes, numbers of tuples, paddings and directions", "why_tests_cant": "a test tries a few ASCII ids; the claim is about every text, whose characters may have one to four bytes", "anchors": ["pkg/extension/0007-n-tuple-omit-prefix-storage-layout.go:18-30", "pkg/extension/0007-n-tuple-omit-prefix-storage-layout.go:137-190"]}
{"id": "C195", "title": "Files of different names do not take each other's place in an object", "statement": "Whatever the configuration of direct-clean, a session that adds files with different clean names leaves an object in which every digest of the manifest is that of the file it names; with the configurations of storage root and objects that come with the program, every version comes out with exactly the files given, whatever characters their names have.", "quantifier": "all file names as found when walking a folder, all areas, all configurations of direct-clean with and without content-subpath, all sessions; for the shipped configuration all runs of commands of any length, with failures and interruptions", "why_tests_cant": "tests try a few names; whether two names meet in one content file depends on all pairs of names, on the order of the extensions and on the fallback for long names", "anchors": ["pkg/extension/NNNN-direct-clean-path-layout.go:199-290", "pkg/extension/NNNN-content-subpath.go:126-178", "pkg/extension/NNNN-gocfl-extension-manager.go:371-402", "pkg/ocfl/objectbase.go:710-735", "data/defaultextensions/object/NNNN-direct-clean-path-layout/config.json", "data/fullextensions/object/NNNN-content-subpath/config.json"]}
{"id": "C196", "title": "Lost files of an object are reported, whatever else is lost with them", "statement": "When any number of files of a valid object is lost, validation still finds no error exactly if each of them is neither the declaration nor an inventory nor a sidecar of one nor listed in the manifest or fixity block of an inventory of the object. An object the program created and changed, and that validates, still validates exactly if all the lost files were in logs or extensions.", "quantifier": "all objects in folders of local disks, all sets of lost files; for own objects all lives of any number of sessions", "why_tests_cant": "tests delete one file at a time from one fixture; the claim is about all sets of files, among them such where the file that would tell of the loss is lost too", "anchors": ["pkg/ocfl/objectbase.go:1013-1408", "pkg/ocfl/inventorybase.go:605-651", "pkg/ocfl/helper.go:168-204"]}
{"id": "C197", "title": "A storage root made and filled by the program validates", "statement": "After any run of commands on a storage root made with the default configuration, each a process of its own, gocfl validate lists exactly the folders of the objects and finds no error.", "quantifier": "all setups with the default configuration, all runs of init or create, add, update and interrupted commands, all ids as URNs, any number of objects and versions", "why_tests_cant": "a test validates one storage root with a few objects; the claim is about every history of commands, and about what commands that were interrupted leave behind", "anchors": ["pkg/ocfl/storagerootbase.go:241-326", "pkg/ocfl/storagerootbase.go:433-519", "gocfl/cmd/validate.go:110-130", "gocfl/cmd/init.go", "gocfl/cmd/create.go", "gocfl/cmd/add.go", "gocfl/cmd/update.go"]}
{"id": "C198", "title": "Validation of a storage root notices lost files of objects", "statement": "If files of a storage root that was made and filled by the program and validates are lost, and one of them is a file of an object outside of its logs and extensions folders, then gocfl validate reports an error.", "quantifier": "all setups with the default configuration, all runs of commands on it, all sets of lost files", "why_tests_cant": "a test removes a few files from one storage root; the claim is about every set of files of every storage root", "anchors": ["pkg/ocfl/storagerootbase.go:241-326", "pkg/ocfl/storagerootbase.go:433-519", "pkg/ocfl/objectbase.go:1013-1408", "gocfl/cmd/validate.go:110-130"]}
{"id": "C199", "title": "Validation of a storage root notices changed files of objects", "statement": "If the content of a file of an object in a storage root that was made and filled by the program and validates changes, and its digests change with it, then gocfl validate reports an error, unless the file lies in logs or extensions of the object.", "quantifier": "all setups with the default configuration, all runs of commands on it, all files of all objects, all changed contents whose digests differ", "why_tests_cant": "a test changes a few files of one storage root; the claim is about every file of every object and every new content", "anchors": ["pkg/ocfl/storagerootbase.go:241-326", "pkg/ocfl/storagerootbase.go:433-519", "pkg/ocfl/objectbase.go:1013-1408", "pkg/ocfl/inventorybase.go:605-651", "gocfl/cmd/validate.go:110-130"]}
{"id": "C200", "title": "Validation of a storage root notices foreign files", "statement": "If a file is added to a folder of a storage root that was made and filled by the program and validates, then gocfl validate reports an error, unless the file lies in the extensions of the storage root or in logs or extensions of an object.", "quantifier": "all setups with the default configuration on local disks, all runs of commands on it, all new files in all folders, all contents", "why_tests_cant": "a test adds a few files to one storage root; the claim is about every place a file can be put", "anchors": ["pkg/ocfl/storagerootbase.go:241-326", "pkg/ocfl/storagerootbase.go:433-519", "pkg/ocfl/objectbase.go:1013-1408", "gocfl/cmd/validate.go:110-130"]}
