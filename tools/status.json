{
 "C01": [
  "proved",
  "For every history of operations: every version other than the head keeps its metadata and its state, and versions opened before are never altered again."
 ],
 "C02": [
  "proved",
  "Opening a version yields the next number and an exact copy of the previous head state."
 ],
 "C03": [
  "proved",
  "Versions stay numbered 1..n with head n along every history, also from a fresh object."
 ],
 "C04": [
  "proved",
  "Version names parse back to their number for all numbers and paddings; different numbers have different names."
 ],
 "C05": [
  "partial",
  "The full statement (padding width kept for ever) is false: the name grows when the number no longer fits. Proved: exact characterisation of when the width is kept, and the negation of the full statement."
 ],
 "C06": [
  "partial",
  "The full statement is false (deleted paths answer yes, padded version names give an error); both failures proved in general. Proved: exact meaning of the answer for unpadded objects, and the property for paths in the head or never recorded."
 ],
 "C07": [
  "partial",
  "As C06: a deleted path is reported as an update. Proved for paths in the head or never recorded; negation of the full statement proved."
 ],
 "C08": [
  "partial",
  "Fails exactly when a deleted path is added again with the digest it last had: the call succeeds but the path is not recorded (proved in general). Proved in all other cases, for any number of names."
 ],
 "C09": [
  "partial",
  "The full statement is false: re-adding a path with known content copies the digest reference without removing the old one (proved). Proved: uniqueness is kept by every history in which copies and renames target unoccupied paths (in particular with no copies)."
 ],
 "C10": [
  "proved",
  "Along every history every digest a version refers to names content in the manifest; the hypothesis that content paths are not empty is discharged by C13_content_path_ne_nil."
 ],
 "C100": [
  "partial",
  "Violated by the code: the thumbnail is remembered under <version>/content/<logical path>, so with another contentDirectory it is stored, never recorded, and a second one is made (C100_full_fails). Proved: recorded, and nothing else made, whenever that name is a content path of the file."
 ],
 "C101": [
  "partial",
  "Violated by the code: the proportions are compared as whole numbers; 300x200 with 256x256 configured gives 384x256 (C101_full_fails). C101_fits_iff: it fits unless the picture is wider in proportion although the whole numbers are equal; C101_fits_partial: pictures not wider in proportion fit."
 ],
 "C102": [
  "partial",
  "violated: storage type path with content-subpath (C102_full_fails), storage types with upper case letters (C102_full_fails_case), valid metadata that is no JSON object (C102_full_fails_object); proved for the settings of MetaFindable, for the same process, and for later histories while no newer version has a file at the place"
 ],
 "C103": [
  "partial",
  "violated both ways: without parameter every update panics (nil dereference), with the empty parameter the commands always pass the first version is created without metadata (C103_full_fails, C103_full_fails_panic, C103_full_fails_any); exact condition proved"
 ],
 "C104": [
  "proved",
  ""
 ],
 "C105": [
  "partial",
  "violated: a file name that begins with the identifier loses leading slashes (C105_full_fails); the second object created with the same extension manager gets nothing and reports the metadata of the first (C105_full_fails_shared); proved for addresses and for names with something before the identifier"
 ],
 "C106": [
  "partial",
  "violated: with --echo all placeholders vanish from the version as soon as the object already contains an empty file (C106_full_fails_echo, general); proved without echo"
 ],
 "C107": [
  "partial",
  "first half proved; second half violated: with deduplication nothing is recorded for a file whose content is known (C107_full_fails_known, general), and the first folder of an object is recorded under its path in the source (C107_full_fails_folder); proved for all files without deduplication, for the process itself and, with the settings of C61, for every later process that reads the object"
 ],
 "C108": [
  "partial",
  "violated, and decided exactly: it holds iff no version without records follows one with records (C108_completes_iff); fails for the automatic version whose conversions all fail (C108_full_fails_conversions)"
 ],
 "C109": [
  "partial",
  "violated by every update that streams no content (C109_full_fails_no_content, general); exact condition in C109_completes_iff"
 ],
 "C11": [
  "proved",
  "Along every history every manifest digest is referenced by some version state (as OCFL E107 demands, by digest). A digest can be left without any logical path after a delete; shown separately."
 ],
 "C110": [
  "partial",
  "violated for folders with quotes: two objects can have the same context (C110_full_fails); text proved in full, difference of objects for folders without quotes"
 ],
 "C111": [
  "partial",
  "violated: the documented switch encodeUTF has no effect (C111_full_fails_switch, general), the documented defaults of the replacement strings do not apply (C111_full_fails_default); proved for files that give the strings; old keys proved in full"
 ],
 "C112": [
  "partial",
  "violated: no defaults \u2014 the hashed layouts cannot be loaded without digestAlgorithm (C112_full_fails_hashed), 0007 without tupleSize crashes on every id (C112_full_fails_tuples); proved for files that give every parameter"
 ],
 "C113": [
  "partial",
  "Proved for folders with at least one file whose content paths differ, whose logical paths are new, differ and are no folders of each other, and contents without digest collisions among themselves and the stored ones; sessions without acting extensions. Fails for an empty folder: add reports success, the object cannot be opened."
 ],
 "C114": [
  "partial",
  "Proved, under the hypotheses of C113: what comes out is exactly the source folder and, for each area, the folder of the last argument of the form [a-z]{2,}:path for it (C114_add_partial, C114_update_partial), hence everything named if all arguments have that form and name different areas (C114_add_named_partial; areaArg_iff characterises the regular expression). Violated: two folders for one area - only the last one is added (C114_full_fails_twice); an area name with other characters (Metadata:x) - the folder is skipped and the command succeeds (C114_full_fails_form)."
 ],
 "C115": [
  "partial",
  "Proved: exit status of update exact (C115_update) and of add exact (C115_add_exact; C115_add up to ids that exist already); closing line of validate (C115_validate_root, C115_validate_tampered) and message of extract (C115_extract). Violated: add of an existing id ends with 0 (C115_full_fails_add), a failed update prints `no errors found` before it fails (C115_full_fails_update), validate ends with 0 for a root that is not valid, even without showing any finding (C115_full_fails_validate), extract ends with 0 if it fails (C115_full_fails_extract)."
 ],
 "C116": [
  "partial",
  "Proved for storage types area and path, content paths version/content/..., and names of documents and schemas that differ and are in the version or in none. Full statement refuted: with another content directory the function returns nil (errors.Wrapf of a nil error) and no document is written; with storage type extension the METS bytes are written under the PREMIS name."
 ],
 "C117": [
  "partial",
  "Soundness with respect to the version described is unconditional; completeness is proved where the primary metadata has a content of its own and contents are stored in the area of their files; also for the version as stored, documents and schemas aside. Files are listed in the group of their area, in the group of contents if they lie in no folder, else in the group of their folder (C117_grouped, C117_grouped_rest). Refuted in full: other files with the content of the primary metadata are dropped; a content of a metadata file that was stored as another file is not located; with storage type path the documents of the previous version are listed with digests the stored version does not have."
 ],
 "C118": [
  "partial",
  "Proved where contents are stored in the area of their files, at most once as metadata, all areas are known beforehand and the primary metadata is set. Refuted in full by four objects: two top folders that are no areas (both groups have the identifier uuid-), a content shared between a metadata and another file (dangling pointer), metadata stored twice (identifier twice), no primary metadata (sections unreached)."
 ],
 "C119": [
  "partial",
  "Objects and migration events are proved unconditionally; links, packings and fixity exactly as far as they go: a link is described iff its file is not metadata, packings are those of versions with the content under any name, a fixity is given iff the indexer knows the content. Refuted in full for each of these three."
 ],
 "C12": [
  "proved",
  "Along every history, every content path listed for a digest stays listed."
 ],
 "C120": [
  "partial",
  "Proved for the descriptive sections always and for files exactly if the object uses sha512 (the type is hard-coded). Refuted for every document: the type of the PREMIS document's checksum is empty, as checksumTypeToMets does not know SHA-512."
 ],
 "C121": [
  "proved",
  ""
 ],
 "C122": [
  "partial",
  "Violated: as soon as an add of a free id wrote anything (always the declaration file first), every later add does nothing and reports no error (C122_blocked, for every interruption; C122_failed_blocked), while opening and updating the object fail for ever (C122_failed_stuck). Concrete: --fixity with an algorithm that is not allowed (C122_full_fails). Holds for an add that was refused before writing (C122_refused_partial)."
 ],
 "C123": [
  "partial",
  "Violated where another file has the same content: the first name of the content is described (C123_full_fails). Proved: exactly the sections with the file's digest carry the type (C123_typed), and the full statement where no other file shares the content (C123_described_partial)."
 ],
 "C124": [
  "partial",
  "Violated by requests handled at the same time: bytes of another object are sent (C124_full_fails). Proved for requests handled one after the other, with objects growing in between (C124_download_partial, C124_digest)."
 ],
 "C125": [
  "partial",
  "Violated when an object changes: the old version is shown until another object is asked for (C125_full_fails). Proved while the files do not change (C125_kept_partial)."
 ],
 "C126": [
  "partial",
  "Violated by requests handled at the same time: the id of one object with the files of another (C126_full_fails). Proved for requests handled one after the other (C126_version_partial, C126_manifest_partial)."
 ],
 "C127": [
  "partial",
  "Violated by .. as name of the extension: any file of the object is given out (C127_full_fails). Proved for ordinary extension names and paths that do not climb above their start, in any interleaving (C127_extension_partial), with the right object one after the other (C127_sequential_partial)."
 ],
 "C128": [
  "partial",
  "Violated by ids with %: they are unescaped twice, and the link to a%2Fb shows a/b (C128_full_fails, C128_full_fails_other). Proved: exactly the ids without %, or with one of / ; and the comma, are found again (C128_link)."
 ],
 "C129": [
  "partial",
  "Violated by blank names: such folders are left out and what they contain appears below another folder (C129_full_fails). Proved for objects without blank names (C129_tree_partial)."
 ],
 "C13": [
  "partial",
  "The full statement is false: a name ../../q gets exactly the content path q (proved for every q). Proved for every name that does not climb above its start directory, with the exact path for clean names and disjointness between versions."
 ],
 "C130": [
  "partial",
  "Violated for sizes recorded by the extension filesystem: they are expected in another type and never seen (C130_full_fails). Proved where the indexer has recorded them too (C130_numbers_partial)."
 ],
 "C131": [
  "partial",
  "Violated with metadata in several versions (which one is shown is random, C131_full_fails) and with another content folder (C131_full_fails_folder). Proved where only one such file was ever stored (C131_info_partial)."
 ],
 "C132": [
  "partial",
  "False: with two of the configurations that come with the tool the new storage root is opened without its rules (C132_full_fails, see C96). Proved: refusal of folders that are not empty; for configurations in folders of their own name with rules, the storage root is opened with version, rules and extensions (up to what WriteConfig loses, see C54), validates without findings and has no objects."
 ],
 "C133": [
  "partial",
  "False in two ways: before the first folder of an extension is made, a storage root without layouts is left where an empty folder `extensions` can be read (C133_full_fails); in stores without folders an interruption between two configurations leaves a storage root with some of the layouts, which puts objects in other folders (C133_full_fails_part). Proved for file systems with folders: the root is the one asked for, or it has no extension folder at all."
 ],
 "C134": [
  "partial",
  "False with layouts that give two objects the same folder (C134_full_fails). Proved for any number of commands and every interleaving if the folders of the objects are apart (C134_apart_partial); all commands can always end (C134_ends)."
 ],
 "C135": [
  "partial",
  "False, there is no locking: for every object and any two updates there is an interleaving in which both succeed and the first is lost (C135_lost_update); two commands adding one object leave a mixture (C135_full_fails), possibly a damaged object (C135_full_fails_damage). Proved: any number of sessions begun from the same inventory leave the files of all its versions as they are, at every moment."
 ],
 "C136": [
  "partial",
  "False in one window: the root inventory is overwritten in place, and a reader that comes while only part of it is written finds an object that does not load (C136_full_fails). In every other case the extraction is the one before or the one after (C136_before_or_after_partial); a loaded inventory stays good for any later history (C136_contents); old versions extract as before (C136_old_version_partial). Names that leave the version folder are excluded (SafeNames); a single file is read in one moment."
 ],
 "C137": [
  "partial",
  "C137_read_back_partial proves the round trip on the level of the bytes of the file for all inventories whose strings are text; C137_codec discharges the assumption Codec of the theorems about stored objects for JSON files; C137_strings says exactly which byte strings survive. C137_full_fails: the names ff and fe become the same text."
 ],
 "C138": [
  "proved",
  "C138_part, C138_same for arbitrary files, C138_part_of_written for files of the program; C138_interrupted_partial and C138_old_version_partial sharpen C22 and C136 with it."
 ],
 "C139": [
  "partial",
  "C139_full_fails with the key `extra`. C139_unknown_ignored: such a member has no influence on what is read. C139_case_ignored: nor has the case of the letters of keys."
 ],
 "C14": [
  "proved",
  "Delete removes exactly the given path from the head and nothing else."
 ],
 "C140": [
  "partial",
  "C140_texts, C140_fixity (exactly the algorithms of file and command line, all known); C140_switches_partial and C140_params_partial are exact. C140_full_fails: without any configuration file of one's own `--ext-NNNN-mets-descriptive-metadata` is never used, because default.toml has a value; C140_full_fails_switch: `--no-compress=false`."
 ],
 "C141": [
  "partial",
  "C141_texts_partial, C141_switches, C141_params; C141_lost and C141_others: exactly six options are lost. C141_full_fails: `create` makes a storage root of version 1.1 although the file says 1.0."
 ],
 "C142": [
  "partial",
  "C142_exact_partial: the options that make no difference to what a run takes are exactly twelve (C142_ignored), among them `create --encrypt-aes`, `--aes-key`, `--keypass-file` and `--default-area`; C142_area: the area parameter of extract has none unless `--area` is given as empty. C142_full_fails."
 ],
 "C143": [
  "partial",
  "C143_made_partial (exact for init and create), C143_plain: add and update never encrypt. C143_full_fails."
 ],
 "C144": [
  "partial",
  "C144_reading_partial for commands that do not write; C144_writing and C144_over_time: after any commands only the last one decides; C144_not_described: the METS document then describes no primary metadata. C144_full_fails."
 ],
 "C145": [
  "partial",
  "C145_created_partial for create, and for add with the same choice; C145_add says exactly what add does. C145_full_fails."
 ],
 "C146": [
  "partial",
  "Violated by every command (C146_full_fails_always): Fullpath makes an address the name of a file in the current folder before the kind of storage is chosen, so that no address that does not begin with a slash is ever reached. C146_reached_partial is exact: only init and create pass the S3 configuration on at all. The pattern of S3 addresses belongs to a dependency and is a parameter."
 ],
 "C147": [
  "partial",
  "C147_read_partial: a reader of the text (part of the specification) recovers everything if no text has a line break and no path begins with three blanks; C147_same_partial. C147_full_fails: a message of three lines passes for a file."
 ],
 "C148": [
  "partial",
  "C148_heading_partial for head, fixity algorithms and numbers; C148_path: the line depends on the digest algorithm only. C148_full_fails."
 ],
 "C149": [
  "partial",
  "C149_shown_partial, C149_hidden, C149_no_effect (three infos never matter beside others), C149_names (names in any case, unknown ones refused). C149_full_fails: `ObjectVersionState` alone shows no path."
 ],
 "C15": [
  "partial",
  "False when the target is occupied (proved). Exact effect proved for all cases, the property for free targets."
 ],
 "C150": [
  "partial",
  "C150_all_partial: if the status is shown at the end, every object folder was listed completely; C150_one: of one object, either it was loaded and shown, or the listing ends with the line that says it could not be loaded; C150_object_iff says exactly when showing a loaded object crashes; C150_error_success. C150_full_fails, C150_full_fails_crash."
 ],
 "C151": [
  "partial",
  "C151_opens_partial for objects outside of `extensions`, at any point of interruption; C151_exact: after a successful add the storage root opens as before exactly if the folder is not a new one directly in `extensions`; C151_lost. C151_full_fails: `add` of `extensions/a` with the flat layout reports success, afterwards no command opens the storage root."
 ],
 "C152": [
  "partial",
  "C152_options_partial (what is given is what the session gets), C152_add, C152_update, C152_session (what is stored and read again, for all clean sessions). C152_full_fails: an empty message."
 ],
 "C153": [
  "partial",
  "C153_unchanged_partial says exactly when a create changes nothing; C153_blocked: otherwise every later create fails; C153_stuck: if the object was not completed, `add` reports success and does nothing, `update` fails and the object does not open. C153_full_fails: `create --fixity md5` without the extension that allows it."
 ],
 "C154": [
  "partial",
  "C154_create_partial under the conditions of C113 (paths apart, no collisions) and C132 (extension configurations read back); no errors at validation for SHA-512 and usual content directories (C80). C154_object_partial for `add`. Violated for a source folder without files (C154_full_fails); further exceptions are those of C80, C113, C132 and C151, for which those have negations."
 ],
 "C155": [
  "partial",
  "C155_folder (findings of the whole validation = those of the root ++ \u2026 ++ those of the object alone ++ \u2026), C155_shown_iff, C155_by_id, C155_both. C155_accepted_iff_partial: exact condition of no errors by id; C155_own_partial: it is the object with that id, in storage roots this program wrote with a layout that keeps ids apart. C155_full_fails: layout that omits a prefix."
 ],
 "C156": [
  "partial",
  "C156_folder_partial (objects with different ids; otherwise see C84), C156_by_id (exact), C156_own_partial. C156_full_fails: layout that omits a prefix."
 ],
 "C157": [
  "partial",
  "C157_folder_partial (default area, trees without nesting), C157_by_id (exact), C157_own_partial. C157_full_fails: layout that omits a prefix."
 ],
 "C158": [
  "partial",
  "C158_written_partial (what is written parses and describes the metadata), C158_written_iff (when), C158_objects_partial (inventory by inventory, with C83 and C84). decMaps_json: inventories read from JSON text meet the hypothesis on maps. C158_full_fails: a folder without object."
 ],
 "C159": [
  "partial",
  "C159_never: it is no JSON document, for no metadata and no findings; C159_first_partial: its first value is the document. C159_full_fails."
 ],
 "C16": [
  "partial",
  "False when the target is occupied with another digest (proved). Exact effect proved, refusal of unknown digests, the property for free targets."
 ],
 "C160": [
  "partial",
  "C160_page_partial: the page after any requests (RightDetail: names exactly those of the inventory, attributes those of the first recorded line). C160_shown: there is a page for every content of the manifest. C160_attrs_partial: after an update of files with different names, read by another process. C160_full_fails: two files with one name. Not modelled: what the page shows of the indexer and of migration; HTML."
 ],
 "C161": [
  "partial",
  "C161_object_partial: the session at the object, with all that is needed for the next one. C161_update_partial: the command, opening by id and extraction. Hypothesis GoodUpdate.placed: a path not in the head never had the content; one in the head is unchanged or gets a content that is nowhere in the object and in one file only. C161_full_fails: e gets the content of f, and comes out with its old content. Extensions may keep files of their own during the session (AddsFiles)."
 ],
 "C162": [
  "partial",
  "C162_archive_partial: every run (ArchiveRun) with what is asked of the files stated on the history only (Deposit). Hypotheses beside those of Fit: Deposit.placed as in C161, and folders of different objects lie apart. C162_full_fails: two commands, the object gives out an old content. Extensions may keep files of their own during the session (AddsFiles)."
 ],
 "C163": [
  "partial",
  "C163_mirror_partial: the command, opening by id and extraction, if one file is new or changed (and placed as in C161). C163_only_removed: without such a file the storage root stays as it was. C163_full_fails: one of three files is gone from the folder and still comes out. Extensions may keep files of their own during the session (AddsFiles)."
 ],
 "C164": [
  "partial",
  "C164_repeat_partial: runs with any number of updates that failed or were interrupted at any byte before the root inventory was opened for writing (they leave the history as it was) or after it was complete (they count). C164_failed: an update that ended with an error is such a one. C164_as_if: the next update does the same as without the broken one, and the files it writes are the same. C164_full_fails: interrupted when the root inventory has been opened and nothing written yet, the object cannot be opened. C164_leftover: what is left makes the object invalid. Extensions may keep files of their own during the session (AddsFiles)."
 ],
 "C165": [
  "partial",
  "C165_rounds_valid: if each version taken by itself is as C80 assumes it, the session succeeds and leaves a valid object with N + 1 + (number of automated versions) versions. C165_user_version: each version the object would have without the automated ones is read back with the same date, message, user and files. C165_full_fails: the version of the user is lost when the extension fails afterwards."
 ],
 "C166": [
  "partial",
  "C166_one_content_partial: with one folder (or any text not depending on the order) README.md has this one content in all versions, after any number of sessions, loads in between included. C166_described_partial: each session that changes anything leaves README.md with this content in the version it makes, mirroring mode included. C166_both: a text stored before, not by the last description, gives README.md both digests. C166_full (any number of folders) is refuted by C166_full_fails: orders A, B, A."
 ],
 "C167": [
  "partial",
  "C167_roundtrip and C167_roundtrip_stdout: sealed segments come out as the data, no other file changes. C167_authentic: whatever the container has become, what comes out is a prefix of the data, and all of it if success is reported. C167_no_key_partial: without key or container nothing changes. C167_same_file: output named as the input leaves an empty file. C167_full (a failing run changes nothing) is refuted by C167_full_fails."
 ],
 "C168": [
  "partial",
  "C168_migration, C168_thumbnail: what is taken is configured for the format (media type), with its id and command; nothing iff none is configured. C168_accepted, C168_accepted_thumbnails: a configuration is accepted iff every function is usable. C168_the_one_partial: if one function only names the format it is taken, in every order. C168_full (same function every time) is refuted by C168_full_fails."
 ],
 "C169": [
  "partial",
  "C169_migration_partial, C169_thumbnail_partial: exact if no value but the last contains an opening brace; C169_call_partial: the whole call, for content files whose extension has none; C169_extension_partial: same extension if it has no asterisk. C169_target_other: the file the program is to write is never the one it reads. C169_full refuted by C169_full_fails (a.{destination}) and C169_full_fails_star (a.*p)."
 ],
 "C17": [
  "partial",
  "False because the area folder is matched as a string prefix (proved in general). Exact effect of the mirror deletion proved for every area, the property for whole objects and for areas without prefix-sharing siblings."
 ],
 "C170": [
  "partial",
  "C170_no_crash_partial: no session crashes on an object whose head is there (or a new one), if names given to AddReader can be made. C170_reader: AddReader crashes exactly if they cannot. C170_damaged: with a head that is not there every session crashes. C170_full refuted by C170_full_fails."
 ],
 "C171": [
  "partial",
  "C171_update_partial (command) and C171_object_partial: for updates as in C161 followed by versions each of which is clean by itself, contents with one digest being the same. C171_full (whatever the extensions do) refuted by C171_full_fails. Extensions may keep files of their own during the session (AddsFiles)."
 ],
 "C172": [
  "proved",
  "C172_place is exact; C172_same. Only the code for Unix is modelled."
 ],
 "C173": [
  "partial",
  "C173_created (right after creation, every configuration), C173_kept_iff_partial (exactly when it holds for all updates: the metadata file has neither the name of the configuration nor of the schema). Violated: metadata file schema.json replaces the schema (C173_full_fails), ./config.json passes the check of the name and replaces the configuration (C173_full_fails_config)."
 ],
 "C174": [
  "partial",
  "Holds for the hashed n-tuple layout without negative numbers (C174_hashed_partial; C174_opens_own_partial uses it for whole histories, C174_concurrent_partial for commands at the same time) and the hash-and-id layout for bytes from 16 on. Exact conditions for the flat, flat-omit-prefix, pairtree layouts and direct clean with UTF encoding; n-tuple-omit-prefix for ASCII rests without slash. Violated by flat (a, a/b), pairtree (ab, abde) and direct clean (a//b, a/b)."
 ],
 "C175": [
  "partial",
  "Holds if each file of a version, of the user or of an extension, is new at its path or has a content that is new (Deposit), versions of extensions consist of single-name readers and files of the extensions' own (C175_automated_archive_partial). Violated where a content moves onto a path that is there (C175_full_fails). Missing: extensions that delete or rename."
 ],
 "C176": [
  "partial",
  "Holds if extensions store no content by themselves (C176_add_partial, C176_update_partial; C176_session and C176_run over time for a digest that is in the object's inventory in lower case and once). Violated otherwise (C176_full_fails): what an extension stores through AddReader is not looked up. C176_asked settles which settings lead to deduplication, C176_apart what happens without."
 ],
 "C177": [
  "partial",
  "C177_create_partial for SHA-512 and SHA-256 and files that do not conflict; C177_area and C177_echo without restriction, the area being that of the configuration file. Violated for --default-area, which create accepts and ignores (C177_full_fails)."
 ],
 "C178": [
  "partial",
  "Violated (C178_full_fails): create --digest md5 succeeds, and the object made is rejected. Exactly SHA-512 leads to an accepted object (C178_exact); any other algorithm never does, whatever is added (C178_other) and whatever updates follow (C178_for_good). SHA-256 is rejected because of a warning that is reported as an error."
 ],
 "C179": [
  "proved",
  "C179_taken, C179_rules, C179_stored. For a manager in the folder initial see C96."
 ],
 "C18": [
  "partial",
  "False in general: with duplicate check re-submitting unchanged files leaves the modified flag unset, so EndUpdate skips mirroring and nothing is written (C18_full_fails, and in general C18_full_fails_checked). Proved: when the session is modified, the stored head lacks every vanished file of the mirrored area."
 ],
 "C180": [
  "partial",
  "Holds (C180_processes_partial) if each layout can be loaded from what it writes and those in use are the same then, which the default configuration meets; the storage root opens exactly if the former holds (C180_opens_iff). Violated: after create with 0003, 0004 or pairtree every command crashes (C180_crash, C180_full_fails); with 0006 every later command looks in another folder (C180_omit), with 0007 in none (C180_tuple_omit)."
 ],
 "C181": [
  "proved",
  "C181_default, without hypotheses on folders; deposits are those of C175 (AutoSession, Deposit), the settings of new objects those of GoodArgs, and an id is added only when it has no object. C181_free: an id whose folder holds no file counts as free, whatever was done with other ids."
 ],
 "C182": [
  "proved",
  "C182_accepted for objects, C182_names_iff for the checks. Version numbers are unbounded (no 64 bit limit of Atoi)."
 ],
 "C183": [
  "partial",
  "C183_accepted_iff gives the exact conditions of acceptance; valid inventories with sha512 are accepted (C183_valid_partial), and what is accepted is valid exactly if it meets the list in Unchecked (C183_accepted_partial). Violated: sha256 is never accepted (C183_full_fails_sha256); content paths outside the version folders are accepted (C183_full_fails_content), as are conflicts of paths that are not neighbours (C37, C38)."
 ],
 "C184": [
  "proved",
  "C184_accepted_iff: acceptance iff ObjAccepted, a specification over the stored bytes and the decoded inventories only. C184_ignored: acceptance is the same for two folders that differ in logs and extensions only. The list also shows what is not asked: the fixity block may name files that are not in the manifest, a version's inventory may have other digests than the root's for the same logical paths."
 ],
 "C185": [
  "partial",
  "C185_crash_iff says exactly which configurations crash and on which ids; sensible configurations never do (C185_no_crash_partial), and 0003 and 0004 report an error exactly if the tuples are longer than the digest (C185_short). Violated: the configuration the program itself writes for 0007 crashes on every id (C185_full_fails); negative sizes are accepted."
 ],
 "C186": [
  "partial",
  "C186_update_iff: the object is valid after a session if and only if all old time stamps are whole seconds; C186_updates_partial: then any sequence of sessions keeps it valid and keeps every file of the old versions. Violated: time stamps with fractions are cut off in the rewritten root inventory only, the object becomes invalid (C186_full_fails) and validation reports it (C186_rejected)."
 ],
 "C187": [
  "partial",
  "C187_once_iff says exactly when; objects whose digests have small letters, all objects made by the tool among them, keep that for ever (C187_small_partial). Violated: an object of another tool with capital letters in its digests, the same content added again (C187_full_fails); neither loading nor validation reports it (C187_unseen)."
 ],
 "C188": [
  "partial",
  "C188_extract_iff says exactly when: every digest of the version has a content path and is written in small letters; then the files arrive (C188_extract_partial). Violated: validation compares digests regardless of case, extraction compares them exactly, so an object with capital letters in its digests validates but cannot be extracted (C188_full_fails)."
 ],
 "C189": [
  "partial",
  "Loss or change of inventories and of every file listed in one of them is noticed (C189_noticed, C189_damage_partial), so is a sidecar that is lost or names another digest (C189_sidecar) and a lost declaration (C189_declaration_lost). C189_change_iff says exactly which changes go unnoticed. Violated by sidecars of other algorithms (C189_full_fails) and by files in a version's folder beside the content directory (C189_full_fails_beside); neither is looked at."
 ],
 "C19": [
  "partial",
  "False: re-adding a file the head already has under a new content path changes the manifest without setting the flag (proved in general). Proved: an unflagged operation never changes fixity or any version's logical content, and can change the manifest only in that case."
 ],
 "C190": [
  "partial",
  "C190_added_iff says exactly which names go unseen (all versions have inventories, as they must on a local disk; C190_added_partial). Violated by files in a version's folder beside the content directory (C190_full_fails) and by names like those of an inventory or a sidecar, with any character for the first dot (C190_full_fails_name)."
 ],
 "C191": [
  "partial",
  "What validates on a local disk validates everywhere (C191_from_disk). The other way exactly if every version has content and an inventory (C191_to_disk_iff). Violated by a version that only renames or removes files: fs.Stat on the content folder fails and the error is compared with == (C191_full_fails)."
 ],
 "C192": [
  "proved",
  "C192_converted_iff (which documents are converted, no hypotheses), C192_same_document (every place holds the same), C192_yaml, C192_toml, C192_stored (through the extension). Schema, decoders and encoder are parameters."
 ],
 "C193": [
  "partial",
  "The declaration is always that of the root, the type agrees exactly if the version is not 2.0 (C193_created_iff, C193_created_partial). Violated for 2.0: newInventory knows only 1.0 and 1.1 and takes 1.0 for everything else (C193_full_fails). Validation never compares the two: a valid object stays valid with the declaration of any other version, even of one that does not exist (C193_not_compared, C193_full_fails_checked)."
 ],
 "C194": [
  "partial",
  "The path is the documented one exactly if all characters in the tuples are ASCII (C194_characters_iff, C194_characters_partial). Violated otherwise: sizes are counted and tuples cut in bytes, so a tuple can end inside a character and the path is no text at all (C194_full_fails, C194_not_text). Reversing works on characters (C194_reversed) and is undone by reversing again exactly for texts (C194_reversed_iff)."
 ],
 "C195": [
  "partial",
  "With utfEncode and names that need no fallback two files share a content path exactly if area folder and name are equal (C195_same_iff), the path is inside the content directory (C195_inside), and with the shipped configurations everything comes out again (C195_default_partial; hypotheses only about names and contents). Violated without utfEncode, the default of the extension: c? and c* are stored in one file, the first content is lost without an error (C195_full_fails). Violated with the shipped configuration for a long name and a file named like its fallback path (C195_full_fails_shipped)."
 ],
 "C196": [
  "proved",
  "C196_noticed, C196_loss_iff, C196_where (where a file that may be missing lies), C196_checked (in terms of checkFolder), C196_own (objects the program wrote). C196_loss_iff asks that no digest of manifest or fixity has an empty list of files. On object stores (plain) an inventory of a version other than the first may be missing: C189."
 ],
 "C197": [
  "partial",
  "Does not hold in full: an add that is interrupted leaves a folder with a declaration and no inventory, and validation of the whole storage root then fails (C197_interrupted for every run, C197_full_fails). C197_validates_partial: it holds if nothing was left behind, the objects have SHA-512 and are not newer than the storage root, the content directory is no beginning of inventory.json.sha512, and on local disks every version brought content. C197_validates_iff: on local disks in no other case. C197_listed: the folders that are listed. C197_begun: an object without inventory. Missing: storage roots with other layouts, ids that are no URNs, storage roots on object stores for the only-if."
 ],
 "C198": [
  "partial",
  "Does not hold in full: an object that is lost as a whole is not noticed, nothing at the storage root names its objects (C198_full_fails). C198_loss_iff: on local disks the rest validates exactly if the declaration of the storage root is left and each object is lost as a whole or has lost only files in logs and extensions; so the configurations of the storage root extensions can be lost unnoticed as well. C198_noticed_partial: it is noticed if a file of that object is left. Hypotheses besides those of C197: no file below a folder of an object has the name of an object declaration (content with such a name could be listed as an object of its own). Missing: storage roots with other layouts, ids that are no URNs, object stores."
 ],
 "C199": [
  "partial",
  "Does not hold in full: a declaration or a sidecar may change as long as it says the same, for example with another end of line (C199_full_fails). C199_change_iff: exactly that and files in logs and extensions go unnoticed, on local disks and object stores. C199_noticed_partial: content and inventories. Hypotheses as in C197. Missing: storage roots with other layouts, ids that are no URNs, several files changed at once."
 ],
 "C20": [
  "proved",
  "Version listing is the versions in numeric order, independent of map order."
 ],
 "C200": [
  "partial",
  "Does not hold in full: a file in a folder of a version beside the content passes (C200_full_fails). C200_added_iff: exactly the files in the extensions of the storage root and those of C190 in an object go unnoticed. C200_noticed_partial: files in folders beside those of the objects, and in the content of a version, are noticed. C200_top_iff: of files directly in the storage root exactly those whose name has a declaration in it are noticed, also in object stores. Hypotheses as in C197. Missing: storage roots with other layouts, ids that are no URNs, folders in object stores."
 ],
 "C21": [
  "partial",
  "Proved for every crash point and session whose names map into the content directory. The full statement is false: a name with '..' overwrites a file of an earlier version (proved)."
 ],
 "C22": [
  "partial",
  "False for every session that changes something: a crash after the root inventory was opened for writing leaves an unloadable object (proved in general). Proved: at every crash point the object loads exactly as before, or the root inventory is a proper initial part of the new one, or the new one loads."
 ],
 "C23": [
  "partial",
  "Proved: loading reports E058/E061/E060 exactly if the sidecar is missing, malformed or names another digest; without these findings inventory and sidecar agree. The inventory is nevertheless accepted (negation of the full statement proved)."
 ],
 "C24": [
  "partial",
  "Proved for all sessions: root and head inventory are the same bytes and match their sidecars; loading gives back the inventory up to fractions of seconds, if no path is empty and names fit the padding. The full statement is false: fractions of seconds are lost, and with an empty logical path the stored object cannot be loaded (both proved)."
 ],
 "C25": [
  "partial",
  "False when one session adds the same content path twice with different content (second overwrites first; C25_full_fails). Proved for every session: if old content is not rewritten and each listed path is written at most once, all manifest entries exist and match; and in terms of names: distinct content paths suffice (no follow-up versions)."
 ],
 "C26": [
  "partial",
  "False without duplicate check (an orphan content file is written; C26_full_fails, in general C26_full_fails_unchecked). Proved with duplicate check for all sessions of unchanged files."
 ],
 "C27": [
  "partial",
  "Every byte written matches the recorded digest (C27_verified_content), and each extracted name holds the content of its path when extraction names are distinct; full claim false: content-subpath strips prefixes so two paths can share a name and the last one wins (C27_full_fails)."
 ],
 "C28": [
  "partial",
  "Nothing else is written, and the extraction is complete for paths before which no path of the same digest lies outside the area; full claim false: a path outside the area ends the loop over the names of its digest silently (C28_full_fails)."
 ],
 "C29": [
  "partial",
  "Proved over all histories of completed and crashed sessions whose names contain no escaping '..' (SafeNames) and versions whose extraction names are distinct; full claim false: a '..' name destroys old content (C29_full_fails)."
 ],
 "C30": [
  "partial",
  "Lines of the manifest are exactly the extracted (digest, name) pairs and can be read back if no name contains a newline; full claim false: a file named like the manifest is overwritten by it (C30_full_fails), names with newlines are ambiguous."
 ],
 "C31": [
  "proved",
  "Both selectors mean the head, every other selector names the version or is an error."
 ],
 "C32": [
  "partial",
  "False for area paths that are not clean, such as ./data (proved). Proved for every configuration with clean area paths, every area and every clean file path."
 ],
 "C33": [
  "partial",
  "False if the folder name of one area is a string prefix of another's (proved in general). Exact condition for extraction proved; isolation proved when folders neither nest nor share a string prefix."
 ],
 "C34": [
  "proved",
  "For every inventory whose version names are v, zeros, number: the version-sequence error is reported iff the numbers are not 1..n, each once."
 ],
 "C35": [
  "proved",
  "For every inventory whose version names have a uniform padding and whose head was decoded: the head error is reported iff head is not the highest version."
 ],
 "C36": [
  "proved",
  "Both directions: missing-digest error iff a version (with a numeric name) refers to a digest absent from the manifest; unreferenced error iff a manifest digest is used by no version."
 ],
 "C37": [
  "partial",
  "Soundness for all inventories whose paths do not end in '/', and completeness when no path sorts between the two conflicting paths; the full claim is refuted: a path such as 'a-b' between 'a' and 'a/c' hides the conflict."
 ],
 "C38": [
  "partial",
  "Every report is a real conflict; the full claim is refuted: the prefix comparison is the wrong way round for sorted paths, so no conflict is ever reported."
 ],
 "C39": [
  "partial",
  "Exact characterisation of when path errors are reported; the full claim is refuted: states of versions whose name is not v<number> are skipped."
 ],
 "C40": [
  "partial",
  "Exact characterisation of crashes and absence of crashes otherwise; the full claim is refuted: null head, null version, missing created and empty paths crash."
 ],
 "C41": [
  "partial",
  "Exact for objects with at least one content file; the full claim is refuted for objects without content files."
 ],
 "C42": [
  "partial",
  "Equality decided exactly on the compared data; the full claim is refuted: digests are never compared."
 ],
 "C43": [
  "partial",
  "Equality implies agreement on everything compared; the full claim is refuted: extra manifest entries go unnoticed."
 ],
 "C44": [
  "partial",
  "Same codes and same findings (up to which of several case-variant fixity digests is named) for every pair of map orders when version names are uniformly padded; crash behaviour order independent for all inventories; the full claim is refuted by versions {v1, v02}."
 ],
 "C45": [
  "proved",
  "For every outcome of sorting."
 ],
 "C46": [
  "partial",
  "Complete description of the lookup for all strings, never nil; full claim false: E107, E103 and others are reported for 1.0 objects but unknown there (E000)."
 ],
 "C47": [
  "partial",
  "Clean, bounded paths for all ids; distinct paths for ids without bytes below 16. Full claim false: escape writes such bytes with one digit (C47_full_fails)."
 ],
 "C48": [
  "partial",
  "Proved for configurations without negative numbers. Full claim false: negative numbers are accepted and crash or collide (C48_full_fails, C48_full_fails_collision)."
 ],
 "C49": [
  "partial",
  "The result is exactly the part after the last delimiter; not empty unless the id ends with the delimiter. Full claim false: C49_full_fails, C49_empty_delimiter."
 ],
 "C50": [
  "partial",
  "Proved for positive tuple size, non-negative number and padding left/right. Full claim false: other configurations are accepted and crash (C50_full_fails, C50_full_fails_padding)."
 ],
 "C51": [
  "partial",
  "Proved for ids of U+0010-U+00FF without comma and positive lengths. Full claim false: full stop and comma collide, codes have no fixed width (C51_full_fails, C51_full_fails_width)."
 ],
 "C52": [
  "partial",
  "Same result only for the same non-empty segments; injective on clean paths. Full claim false: empty segments are dropped (C52_full_fails)."
 ],
 "C53": [
  "partial",
  "Total length always bounded; clean results with UTF encoding, without it for sensible replacement strings, and in the fallback for a clean folder. Full claim false: '...' becomes '..' with the default replacement (C53_full_fails), empty results, crash of the fallback."
 ],
 "C54": [
  "partial",
  "Holds for the flat layouts and direct-clean. Full claim false: WriteConfig of the other layouts drops all parameters (C54_full_fails, C54_lost)."
 ],
 "C55": [
  "partial",
  "At most one entry of every group remains, nothing is invented and entries not named in any group all stay, for all configurations and sort outcomes; for groups without common or repeated names exactly the present entry listed first remains. With overlapping groups a whole group can vanish, and with a repeated name the wrong entry is kept (both proved)."
 ],
 "C56": [
  "partial",
  "For every outcome of the unstable sort nothing is lost or duplicated and named entries come in the listed order. Entries that are not named are not put at the end as documented but in front of all named entries except the first (proved)."
 ],
 "C57": [
  "partial",
  "Creating in an occupied folder is refused and writes nothing (all roots). Opening by id returns that id for layouts keeping the folders of the ids in use apart and file systems reporting missing inventories. Full claim fails: layout 0006 maps info:a and urn:a to one folder; a missing inventory is replaced by one without id."
 ],
 "C58": [
  "partial",
  "Proved for all trees: no folder is listed twice. Exact listing proved for hierarchies without stray files whose objects hold no earlier-sorting entry. Full claim fails: a stray file hides objects; a folder sorting before the declaration is listed as an object."
 ],
 "C59": [
  "partial",
  "Own declarations are recognised and everything recognised carries a matching declaration text. Full claim fails: the name pattern is unanchored, so backup files such as old-0=ocfl_1.0.bak count and a second one blocks opening; a declaration with CRLF is not accepted."
 ],
 "C60": [
  "partial",
  "For every interleaving: mutual exclusion, short paths are right, other results come from the digest of one call's name or of nothing; right if no call enters before the digest is taken. Full claim fails: Sum is taken after Unlock, two calls can return the same path."
 ],
 "C61": [
  "partial",
  "Where writing and reading go is proved exactly for all extensions and settings (C61_exact_partial); found again for storage type extension, without content-subpath, and for named areas of a clean content-subpath, also after every later history with safe names. Full claim false: storage type path with a default area folder (folder applied twice, in general C61_full_fails_path), storage types with upper-case letters (C61_full_fails_case)."
 ],
 "C62": [
  "partial",
  "Proved for the extensions of the repository (any number of filesystem and migration extensions, whatever they find and do): EndUpdate returns after at most one follow-up version in total; for extensions asking a bounded number of times, at most that many. Full claim false for an extension that always asks (never returns, C62_full_fails_forever)."
 ],
 "C63": [
  "partial",
  "Proved over all schedules, contents, numbers of extensions and buffer sizes: if extensions do not close the reader they are handed and stop reading at the end of the stream, no execution is infinite, no reachable state is stuck before everything has ended, every pipe delivers the whole content, and addReader fails exactly if an extension fails. The full claim is false: an extension that closes its reader makes the manager return early and addReader block forever (C63_full_fails_close)."
 ],
 "C64": [
  "partial",
  "Cleaned names contain none of the characters the pattern really covers and no leading blanks or dashes. Full claim fails: the backslash is missing from the pattern and -.. is cleaned to two dots."
 ],
 "C65": [
  "partial",
  "False when areas are ended separately: EndArea clears the list of submitted files, the final mirror deletion then removes them (C65_full_fails, in general C65_full_fails_area). Proved for sessions without area changes."
 ],
 "C66": [
  "proved",
  "For all iteration orders of the maps."
 ],
 "C67": [
  "proved",
  "For every outcome of sorting; findings with a code, which record_code shows for all recorded ones."
 ],
 "C68": [
  "partial",
  "Proved for reports sorted by insertion sort (up to 12) and for sorted reports of one kind of any length, if the concatenated sort keys do not collide; full claim false for colliding keys (C68_full_fails)."
 ],
 "C69": [
  "partial",
  "Full claim false for every recorded finding: the version is dropped by AppendDescription and AppendContext (C69_full_fails_recorded)."
 ],
 "C70": [
  "partial",
  "Proved for 0003, 0004 (no short root, no negative numbers), pairtree and direct-clean with UTF encoding. Full claim false: C70_full_fails, C70_full_fails_prefix."
 ],
 "C71": [
  "partial",
  "Proved for the catalogue layouts. Full claim false for direct-clean, direct path and pairtree (C71_full_fails)."
 ],
 "C72": [
  "partial",
  "Proved if no layout extension reports an error for the id. Full claim fails: CreateObject ignores the layout's error, LoadObjectByID does not."
 ],
 "C73": [
  "partial",
  "Proved where reading a missing file returns fs.ErrNotExist itself. Full claim fails elsewhere (local disks): an empty inventory is made up."
 ],
 "C74": [
  "partial",
  "The folder is new and contains no object (all roots); not inside another object with layouts keeping folders apart. Full claim fails: id a/b with the flat layout is created inside object a."
 ],
 "C75": [
  "proved",
  "C75_accepted_content"
 ],
 "C76": [
  "partial",
  "violated; C76_completes_iff says exactly when validation of a loadable object ends; C76_full_fails_folder/_content/_inventory show classes of objects where it panics or aborts"
 ],
 "C77": [
  "partial",
  "violated: digests of version states are not compared (C77_full_fails); for the head version the manifest is shown to be contained in the root manifest, not the converse (C43); everything else in the statement is proved"
 ],
 "C78": [
  "proved",
  "C78_root_determines_content, C78_tampering_detected; up to collisions on the files concerned"
 ],
 "C79": [
  "partial",
  "Exactly when it holds is proved (C79_accepted_iff, local disks): a valid object is accepted iff it uses SHA-512, every version has an inventory and content of its own, and the name of the content directory is no beginning of inventory.json.sha512. The full statement is refuted for each of the others in general (C79_full_fails_sha256, C79_full_fails_content_name)."
 ],
 "C80": [
  "partial",
  "C80_session_valid: a completed session on an intact object leaves a valid object with one version more, and what is read back from it is intact again; C80_life_valid: so does every sequence of sessions from creation on. C80_life_accepted_iff: on local disks validation accepts it exactly if the object has SHA-512, the content directory is no beginning of inventory.json.sha512, and every version brought new content. Violated: C80_full_fails_rename (a session that only renames a file leaves an object whose validation stops with an error on a local disk). Assumed of sessions (CleanSession): names with content paths of their own, safe logical paths without conflicts, no follow-up versions by extensions."
 ],
 "C81": [
  "proved",
  "C81_accepted_root for every tree; C81_every_object without nesting; C81_accepted_iff_partial adds the converse for storage hierarchies as the standard describes them."
 ],
 "C82": [
  "partial",
  "Violated (C82_full_fails): an object whose check aborts, e.g. a version without content on a local disk, ends validation of the root before the status is shown, and a wrong root declaration keeps every object from being validated. C82_completes_iff gives the exact condition; C82_all_reported_partial: where it ends, everything is reported."
 ],
 "C83": [
  "partial",
  "C83_metadata_exact_partial (all but checksums), C83_checksums_partial (checksums of the first content path), C83_life_exact (every object the tool wrote). Violated for checksums of further content paths: C83_full_fails."
 ],
 "C84": [
  "partial",
  "C84_root_metadata_partial (distinct identifiers), C84_completes_iff (exactly when there is a result). Violated for two objects with one identifier: C84_full_fails."
 ],
 "C85": [
  "partial",
  "C85_root_extraction_partial (the default area is what is extracted). Violated for other areas, which are ignored: C85_full_fails_area, C85_full_fails."
 ],
 "C86": [
  "partial",
  "C86_completes_iff, C86_reported_exact, C86_stays_readable_partial (index files in the content, one for each new version). Violated by a session that stores no content: C86_full_fails; one such object makes the metadata of the whole root unavailable: C86_breaks_root."
 ],
 "C87": [
  "partial",
  "Clean itself is exact: after NewVersion on an unmodified object with versions it gives back the inventory (C87_clean_undoes); the first version stays, or with padded names is an error (C87_clean_first). Sessions never use it: a successful modified session always leaves one version plus one per automatic version (C87_versions_counted_partial), so an automatic version nothing is done in is stored with the files of the one before (C87_unused_version_stored, C87_full_fails)."
 ],
 "C88": [
  "partial",
  "A session adds to the listed content paths a sub-list of those its calls build, once per name given (C88_session_adds; C88_add_exact for one operation). Hence listed once, for every session, failed or not and with automatic versions, in which no call names two files for one content (C88_listed_once_partial). AddReader with k names lists the path k times (C88_names_counted, C88_full_fails)."
 ],
 "C89": [
  "partial",
  "Exact effect proved when no result takes the name of another file; the command is given the content of the file that is recorded as migrated (C89_source). Violated: a result whose name is taken replaces that file (C89_full_fails_clash), strategy add with an unchanged name overwrites the original (C89_full_fails_same_name), and strategy folder on a file that was itself the result of a migration leaves it under the empty name (C89_full_fails_again)."
 ],
 "C90": [
  "partial",
  "Proved: exactly which contents are picked (C90_collect_exact: every content in the manifest, whether any version still has it or not), and that migrating contents of the version before never fails an unpadded object whatever the commands do. Violated: every picked content that is not in the version before makes the update fail or panic (C90_full_fails_absent, C90_full_fails)."
 ],
 "C91": [
  "partial",
  "Proved: every line written can be read back, and all originals are named if lines with the same result have the same original. Violated: records are kept by the digest of the result, so of two originals with identical results only one is named (C91_full_fails_forgotten, C91_full_fails); the other is picked again, and with strategy replace the next update then panics."
 ],
 "C92": [
  "proved",
  "With and without fallback; the ends of names for results without fallback."
 ],
 "C93": [
  "partial",
  "Proved for names that are too long and sub folders of one character (or at most one sub folder). Violated: sub folders of more characters overlap (C93_full_fails), and for a path that is too long as a whole the digest is that of the cleaned path (C93_full_fails_cleaned)."
 ],
 "C94": [
  "proved",
  "Directories are implicit in the model; an empty directory counts as absent. The error of fs.Sub/ReadDir for a missing folder is taken to be fs.ErrNotExist."
 ],
 "C95": [
  "partial",
  "Violated (C95_full_fails): with layout 0006 the ids a and x:a share a folder, update of x:a, which was never added, writes a new version of the object a. Holds for layouts that keep the ids in use apart, with missing inventories reported (C95_update_own_partial)."
 ],
 "C96": [
  "partial",
  "Violated: Initial.SetExtension sets ExtensionName instead of Extension; with the configurations in data/scicoreextensions and data/nomigrationextensions the stored initial/config.json is loaded as a second manager without rules, which wins (C96_full_fails), and the folder of an object changes (C96_full_fails_layout). A manager without rules is not stored and loading fails (C96_full_fails_empty). Holds if every folder carries the name of its extension and the manager has rules (C96_rules_partial), or there is no initial (C96_plain_partial)."
 ],
 "C97": [
  "partial",
  "Violated when a storage root is opened: validation is nil there, the warning is a method call on nil, it panics (C97_full_fails). Holds for objects, where there is somebody to report to (C97_ignored_partial)."
 ],
 "C98": [
  "partial",
  "Violated by the code: with singleDirectory false (the default) a random number below 16 has one hexadecimal digit and []rune(cs)[1] panics, on average for every fourth thumbnail (C98_full_fails, exact in C98_name_panics_iff). Proved for all sessions and all random numbers: each record names a file of its own with a thumbnail of that file; names of different versions differ; no panic with one folder or numbers from 16. Only storage type extension."
 ],
 "C99": [
  "partial",
  "Violated by the code: in an area the area's folder appears twice in the name reported (C99_full_fails); a file whose command failed is reported with a thumbnail data/x/y/digest.png that does not exist (C99_full_fails_failed); with digests in upper case (inventory of another program) GetMetadata of the object fails for ever after (C99_full_fails_case). Proved for storage type extension, lower-case digests, after any session: everything is read, each thumbnail is found under the name reported, no file with a record is handled again."
 ]
}
