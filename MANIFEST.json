{
 "claims": [
  {
   "property": "C01",
   "status": "proved",
   "theorems": [
    "Gocfl.C01_non_head_versions_immutable",
    "Gocfl.C01_sealed_versions_immutable"
   ],
   "note": "For every history of operations: every version other than the head keeps its metadata and its state, and versions opened before are never altered again."
  },
  {
   "property": "C02",
   "status": "proved",
   "theorems": [
    "Gocfl.C02_new_version_copies"
   ],
   "note": "Opening a version yields the next number and an exact copy of the previous head state."
  },
  {
   "property": "C03",
   "status": "proved",
   "theorems": [
    "Gocfl.C03_contiguous_versions",
    "Gocfl.C03_contiguous_versions_fresh"
   ],
   "note": "Versions stay numbered 1..n with head n along every history, also from a fresh object."
  },
  {
   "property": "C04",
   "status": "proved",
   "theorems": [
    "Gocfl.C04_version_name_round_trip",
    "Gocfl.C04_version_names_distinct"
   ],
   "note": "Version names parse back to their number for all numbers and paddings; different numbers have different names."
  },
  {
   "property": "C05",
   "status": "partial",
   "theorems": [
    "Gocfl.C05_padding_kept_iff",
    "Gocfl.C05_padding_kept_partial",
    "Gocfl.C05_full_fails_at",
    "Gocfl.C05_full_fails"
   ],
   "note": "The full statement (padding width kept for ever) is false: the name grows when the number no longer fits. Proved: exact characterisation of when the width is kept, and the negation of the full statement."
  },
  {
   "property": "C06",
   "status": "partial",
   "theorems": [
    "Gocfl.C06_already_exists_exact",
    "Gocfl.C06_already_exists_partial",
    "Gocfl.C06_full_fails_deleted",
    "Gocfl.C06_full_fails_padded",
    "Gocfl.C06_full_fails"
   ],
   "note": "The full statement is false (deleted paths answer yes, padded version names give an error); both failures proved in general. Proved: exact meaning of the answer for unpadded objects, and the property for paths in the head or never recorded."
  },
  {
   "property": "C07",
   "status": "partial",
   "theorems": [
    "Gocfl.C07_is_update_exact",
    "Gocfl.C07_is_update_partial",
    "Gocfl.C07_full_fails"
   ],
   "note": "As C06: a deleted path is reported as an update. Proved for paths in the head or never recorded; negation of the full statement proved."
  },
  {
   "property": "C08",
   "status": "partial",
   "theorems": [
    "Gocfl.C08_add_file_partial",
    "Gocfl.C08_full_fails_readd",
    "Gocfl.C08_full_fails"
   ],
   "note": "Fails exactly when a deleted path is added again with the digest it last had: the call succeeds but the path is not recorded (proved in general). Proved in all other cases, for any number of names."
  },
  {
   "property": "C09",
   "status": "partial",
   "theorems": [
    "Gocfl.C09_one_digest_per_path_partial",
    "Gocfl.C09_one_digest_per_path_no_copy_partial",
    "Gocfl.C09_full_fails_copy",
    "Gocfl.C09_full_fails"
   ],
   "note": "The full statement is false: re-adding a path with known content copies the digest reference without removing the old one (proved). Proved: uniqueness is kept by every history in which copies and renames target unoccupied paths (in particular with no copies)."
  },
  {
   "property": "C10",
   "status": "proved",
   "theorems": [
    "Gocfl.C10_no_dangling_digests",
    "Gocfl.C10_no_dangling_digests_fresh"
   ],
   "note": "Along every history every digest a version refers to names content in the manifest; the hypothesis that content paths are not empty is discharged by C13_content_path_ne_nil."
  },
  {
   "property": "C11",
   "status": "proved",
   "theorems": [
    "Gocfl.C11_manifest_referenced",
    "Gocfl.C11_manifest_referenced_fresh",
    "Gocfl.C11_manifest_digest_without_path"
   ],
   "note": "Along every history every manifest digest is referenced by some version state (as OCFL E107 demands, by digest). A digest can be left without any logical path after a delete; shown separately."
  },
  {
   "property": "C12",
   "status": "proved",
   "theorems": [
    "Gocfl.C12_manifest_only_grows"
   ],
   "note": "Along every history, every content path listed for a digest stays listed."
  },
  {
   "property": "C13",
   "status": "partial",
   "theorems": [
    "Gocfl.C13_content_path_inside_partial",
    "Gocfl.C13_content_path_clean_name",
    "Gocfl.C13_versions_disjoint",
    "Gocfl.C13_content_path_ne_nil",
    "Gocfl.C13_full_fails_dotdot",
    "Gocfl.C13_full_fails"
   ],
   "note": "The full statement is false: a name ../../q gets exactly the content path q (proved for every q). Proved for every name that does not climb above its start directory, with the exact path for clean names and disjointness between versions."
  },
  {
   "property": "C14",
   "status": "proved",
   "theorems": [
    "Gocfl.C14_delete_exact"
   ],
   "note": "Delete removes exactly the given path from the head and nothing else."
  },
  {
   "property": "C15",
   "status": "partial",
   "theorems": [
    "Gocfl.C15_rename_exact",
    "Gocfl.C15_rename_partial",
    "Gocfl.C15_full_fails_occupied",
    "Gocfl.C15_full_fails"
   ],
   "note": "False when the target is occupied (proved). Exact effect proved for all cases, the property for free targets."
  },
  {
   "property": "C16",
   "status": "partial",
   "theorems": [
    "Gocfl.C16_copy_exact",
    "Gocfl.C16_copy_refused",
    "Gocfl.C16_copy_partial",
    "Gocfl.C16_full_fails_occupied",
    "Gocfl.C16_full_fails"
   ],
   "note": "False when the target is occupied with another digest (proved). Exact effect proved, refusal of unknown digests, the property for free targets."
  },
  {
   "property": "C17",
   "status": "partial",
   "theorems": [
    "Gocfl.C17_mirror_exact",
    "Gocfl.C17_mirror_partial",
    "Gocfl.C17_mirror_whole_object",
    "Gocfl.C17_full_fails_boundary",
    "Gocfl.C17_full_fails"
   ],
   "note": "False because the area folder is matched as a string prefix (proved in general). Exact effect of the mirror deletion proved for every area, the property for whole objects and for areas without prefix-sharing siblings."
  },
  {
   "property": "C18",
   "status": "partial",
   "theorems": [
    "Gocfl.C18_full_fails_checked",
    "Gocfl.C18_full_fails",
    "Gocfl.C18_vanished_files_removed_partial"
   ],
   "note": "False in general: with duplicate check re-submitting unchanged files leaves the modified flag unset, so EndUpdate skips mirroring and nothing is written (C18_full_fails, and in general C18_full_fails_checked). Proved: when the session is modified, the stored head lacks every vanished file of the mirrored area."
  },
  {
   "property": "C19",
   "status": "partial",
   "theorems": [
    "Gocfl.C19_unflagged_partial",
    "Gocfl.C19_full_fails_duplicate",
    "Gocfl.C19_full_fails"
   ],
   "note": "False: re-adding a file the head already has under a new content path changes the manifest without setting the flag (proved in general). Proved: an unflagged operation never changes fixity or any version's logical content, and can change the manifest only in that case."
  },
  {
   "property": "C20",
   "status": "proved",
   "theorems": [
    "Gocfl.C20_version_listing",
    "Gocfl.C20_version_listing_perm"
   ],
   "note": "Version listing is the versions in numeric order, independent of map order."
  },
  {
   "property": "C21",
   "status": "partial",
   "theorems": [
    "Gocfl.C21_crash_before_root_harmless_partial",
    "Gocfl.C21_full_fails"
   ],
   "note": "Proved for every crash point and session whose names map into the content directory. The full statement is false: a name with '..' overwrites a file of an earlier version (proved)."
  },
  {
   "property": "C22",
   "status": "partial",
   "theorems": [
    "Gocfl.C22_full_fails_torn",
    "Gocfl.C22_crash_points_partial",
    "Gocfl.C22_full_fails"
   ],
   "note": "False for every session that changes something: a crash after the root inventory was opened for writing leaves an unloadable object (proved in general). Proved: at every crash point the object loads exactly as before, or the root inventory is a proper initial part of the new one, or the new one loads."
  },
  {
   "property": "C23",
   "status": "partial",
   "theorems": [
    "Gocfl.C23_sidecar_findings",
    "Gocfl.C23_silent_means_match",
    "Gocfl.C23_full_fails"
   ],
   "note": "Proved: loading reports E058/E061/E060 exactly if the sidecar is missing, malformed or names another digest; without these findings inventory and sidecar agree. The inventory is nevertheless accepted (negation of the full statement proved)."
  },
  {
   "property": "C24",
   "status": "partial",
   "theorems": [
    "Gocfl.C24_stored_files",
    "Gocfl.C24_stored_inventories_load_partial",
    "Gocfl.C24_full_fails_empty_path",
    "Gocfl.C24_full_fails"
   ],
   "note": "Proved for all sessions: root and head inventory are the same bytes and match their sidecars; loading gives back the inventory up to fractions of seconds, if no path is empty and names fit the padding. The full statement is false: fractions of seconds are lost, and with an empty logical path the stored object cannot be loaded (both proved)."
  },
  {
   "property": "C25",
   "status": "partial",
   "theorems": [
    "Gocfl.C25_content_matches_partial",
    "Gocfl.C25_distinct_names_partial",
    "Gocfl.C25_full_fails"
   ],
   "note": "False when one session adds the same content path twice with different content (second overwrites first; C25_full_fails). Proved for every session: if old content is not rewritten and each listed path is written at most once, all manifest entries exist and match; and in terms of names: distinct content paths suffice (no follow-up versions)."
  },
  {
   "property": "C26",
   "status": "partial",
   "theorems": [
    "Gocfl.C26_unchanged_writes_nothing_partial",
    "Gocfl.C26_full_fails_unchecked",
    "Gocfl.C26_full_fails"
   ],
   "note": "False without duplicate check (an orphan content file is written; C26_full_fails, in general C26_full_fails_unchecked). Proved with duplicate check for all sessions of unchanged files."
  },
  {
   "property": "C27",
   "status": "partial",
   "theorems": [
    "Gocfl.C27_verified_content",
    "Gocfl.C27_verified_partial",
    "Gocfl.C27_full_fails"
   ],
   "note": "Every byte written matches the recorded digest (C27_verified_content), and each extracted name holds the content of its path when extraction names are distinct; full claim false: content-subpath strips prefixes so two paths can share a name and the last one wins (C27_full_fails)."
  },
  {
   "property": "C28",
   "status": "partial",
   "theorems": [
    "Gocfl.C28_nothing_else",
    "Gocfl.C28_complete_partial",
    "Gocfl.C28_full_fails_shared",
    "Gocfl.C28_full_fails"
   ],
   "note": "Nothing else is written, and the extraction is complete for paths before which no path of the same digest lies outside the area; full claim false: a path outside the area ends the loop over the names of its digest silently (C28_full_fails)."
  },
  {
   "property": "C29",
   "status": "partial",
   "theorems": [
    "Gocfl.C29_old_versions_extract_partial",
    "Gocfl.C29_full_fails"
   ],
   "note": "Proved over all histories of completed and crashed sessions whose names contain no escaping '..' (SafeNames) and versions whose extraction names are distinct; full claim false: a '..' name destroys old content (C29_full_fails)."
  },
  {
   "property": "C30",
   "status": "partial",
   "theorems": [
    "Gocfl.C30_manifest_partial",
    "Gocfl.C30_manifest_readable",
    "Gocfl.C30_full_fails_newline",
    "Gocfl.C30_full_fails"
   ],
   "note": "Lines of the manifest are exactly the extracted (digest, name) pairs and can be read back if no name contains a newline; full claim false: a file named like the manifest is overwritten by it (C30_full_fails), names with newlines are ambiguous."
  },
  {
   "property": "C31",
   "status": "proved",
   "theorems": [
    "Gocfl.C31_selector"
   ],
   "note": "Both selectors mean the head, every other selector names the version or is an error."
  },
  {
   "property": "C32",
   "status": "partial",
   "theorems": [
    "Gocfl.C32_round_trip_partial",
    "Gocfl.C32_full_fails"
   ],
   "note": "False for area paths that are not clean, such as ./data (proved). Proved for every configuration with clean area paths, every area and every clean file path."
  },
  {
   "property": "C33",
   "status": "partial",
   "theorems": [
    "Gocfl.C33_extract_iff",
    "Gocfl.C33_isolated_partial",
    "Gocfl.C33_full_fails_prefix",
    "Gocfl.C33_full_fails"
   ],
   "note": "False if the folder name of one area is a string prefix of another's (proved in general). Exact condition for extraction proved; isolation proved when folders neither nest nor share a string prefix."
  },
  {
   "property": "C34",
   "status": "proved",
   "theorems": [
    "Gocfl.C34_sequence_error_iff"
   ],
   "note": "For every inventory whose version names are v, zeros, number: the version-sequence error is reported iff the numbers are not 1..n, each once."
  },
  {
   "property": "C35",
   "status": "proved",
   "theorems": [
    "Gocfl.C35_head_error_iff"
   ],
   "note": "For every inventory whose version names have a uniform padding and whose head was decoded: the head error is reported iff head is not the highest version."
  },
  {
   "property": "C36",
   "status": "proved",
   "theorems": [
    "Gocfl.C36_state_digest_error_iff",
    "Gocfl.C36_unreferenced_error_iff"
   ],
   "note": "Both directions: missing-digest error iff a version (with a numeric name) refers to a digest absent from the manifest; unreferenced error iff a manifest digest is used by no version."
  },
  {
   "property": "C37",
   "status": "partial",
   "theorems": [
    "Gocfl.C37_reported_is_conflict_partial",
    "Gocfl.C37_conflict_reported_partial",
    "Gocfl.C37_full_fails_between",
    "Gocfl.C37_full_fails"
   ],
   "note": "Soundness for all inventories whose paths do not end in '/', and completeness when no path sorts between the two conflicting paths; the full claim is refuted: a path such as 'a-b' between 'a' and 'a/c' hides the conflict."
  },
  {
   "property": "C38",
   "status": "partial",
   "theorems": [
    "Gocfl.C38_full_fails_never_reported",
    "Gocfl.C38_reported_is_conflict_partial",
    "Gocfl.C38_full_fails"
   ],
   "note": "Every report is a real conflict; the full claim is refuted: the prefix comparison is the wrong way round for sorted paths, so no conflict is ever reported."
  },
  {
   "property": "C39",
   "status": "partial",
   "theorems": [
    "Gocfl.C39_unsafe_reported_partial",
    "Gocfl.C39_path_errors_iff_partial",
    "Gocfl.C39_accepted_safe",
    "Gocfl.C39_full_fails"
   ],
   "note": "Exact characterisation of when path errors are reported; the full claim is refuted: states of versions whose name is not v<number> are skipped."
  },
  {
   "property": "C40",
   "status": "partial",
   "theorems": [
    "Gocfl.C40_crash_iff",
    "Gocfl.C40_no_crash_partial",
    "Gocfl.C40_full_fails_head",
    "Gocfl.C40_full_fails_empty_path",
    "Gocfl.C40_full_fails"
   ],
   "note": "Exact characterisation of crashes and absence of crashes otherwise; the full claim is refuted: null head, null version, missing created and empty paths crash."
  },
  {
   "property": "C41",
   "status": "partial",
   "theorems": [
    "Gocfl.C41_files_match_iff_partial",
    "Gocfl.C41_algorithms_present",
    "Gocfl.C41_full_fails_no_files",
    "Gocfl.C41_full_fails"
   ],
   "note": "Exact for objects with at least one content file; the full claim is refuted for objects without content files."
  },
  {
   "property": "C42",
   "status": "partial",
   "theorems": [
    "Gocfl.C42_equal_iff",
    "Gocfl.C42_equal_partial",
    "Gocfl.C42_full_fails_digests",
    "Gocfl.C42_full_fails"
   ],
   "note": "Equality decided exactly on the compared data; the full claim is refuted: digests are never compared."
  },
  {
   "property": "C43",
   "status": "partial",
   "theorems": [
    "Gocfl.C43_equal_partial",
    "Gocfl.C43_agree_equal",
    "Gocfl.C43_full_fails_extra",
    "Gocfl.C43_full_fails"
   ],
   "note": "Equality implies agreement on everything compared; the full claim is refuted: extra manifest entries go unnoticed."
  },
  {
   "property": "C44",
   "status": "partial",
   "theorems": [
    "Gocfl.C44_crash_order_independent",
    "Gocfl.C44_findings_order_independent_partial",
    "Gocfl.C44_full_fails"
   ],
   "note": "Same codes and same findings (up to which of several case-variant fixity digests is named) for every pair of map orders when version names are uniformly padded; crash behaviour order independent for all inventories; the full claim is refuted by versions {v1, v02}."
  },
  {
   "property": "C45",
   "status": "proved",
   "theorems": [
    "Gocfl.C45_nothing_lost"
   ],
   "note": "For every outcome of sorting."
  },
  {
   "property": "C46",
   "status": "partial",
   "theorems": [
    "Gocfl.C46_lookup_partial",
    "Gocfl.C46_full_fails"
   ],
   "note": "Complete description of the lookup for all strings, never nil; full claim false: E107, E103 and others are reported for 1.0 objects but unknown there (E000)."
  },
  {
   "property": "C47",
   "status": "partial",
   "theorems": [
    "Gocfl.C47_distinct_paths_partial",
    "Gocfl.C47_total_partial",
    "Gocfl.C47_full_fails"
   ],
   "note": "Clean, bounded paths for all ids; distinct paths for ids without bytes below 16. Full claim false: escape writes such bytes with one digit (C47_full_fails)."
  },
  {
   "property": "C48",
   "status": "partial",
   "theorems": [
    "Gocfl.C48_digest_path_partial",
    "Gocfl.C48_full_fails",
    "Gocfl.C48_full_fails_collision"
   ],
   "note": "Proved for configurations without negative numbers. Full claim false: negative numbers are accepted and crash or collide (C48_full_fails, C48_full_fails_collision)."
  },
  {
   "property": "C49",
   "status": "partial",
   "theorems": [
    "Gocfl.C49_omits_prefix_partial",
    "Gocfl.C49_full_fails",
    "Gocfl.C49_empty_delimiter"
   ],
   "note": "The result is exactly the part after the last delimiter; not empty unless the id ends with the delimiter. Full claim false: C49_full_fails, C49_empty_delimiter."
  },
  {
   "property": "C50",
   "status": "partial",
   "theorems": [
    "Gocfl.C50_shape_partial",
    "Gocfl.C50_collision_free_partial",
    "Gocfl.C50_reversed",
    "Gocfl.C50_full_fails",
    "Gocfl.C50_full_fails_padding"
   ],
   "note": "Proved for positive tuple size, non-negative number and padding left/right. Full claim false: other configurations are accepted and crash (C50_full_fails, C50_full_fails_padding)."
  },
  {
   "property": "C51",
   "status": "partial",
   "theorems": [
    "Gocfl.C51_reversible_partial",
    "Gocfl.C51_total",
    "Gocfl.C51_full_fails",
    "Gocfl.C51_full_fails_width"
   ],
   "note": "Proved for ids of U+0010-U+00FF without comma and positive lengths. Full claim false: full stop and comma collide, codes have no fixed width (C51_full_fails, C51_full_fails_width)."
  },
  {
   "property": "C52",
   "status": "partial",
   "theorems": [
    "Gocfl.C52_injective_partial",
    "Gocfl.C52_injective_clean_partial",
    "Gocfl.C52_full_fails"
   ],
   "note": "Same result only for the same non-empty segments; injective on clean paths. Full claim false: empty segments are dropped (C52_full_fails)."
  },
  {
   "property": "C53",
   "status": "partial",
   "theorems": [
    "Gocfl.C53_path_length",
    "Gocfl.C53_utf_safe_partial",
    "Gocfl.C53_plain_safe_partial",
    "Gocfl.C53_full_fails",
    "Gocfl.C53_full_fails_empty",
    "Gocfl.C53_fallback_safe_partial",
    "Gocfl.C53_full_fails_crash"
   ],
   "note": "Total length always bounded; clean results with UTF encoding, without it for sensible replacement strings, and in the fallback for a clean folder. Full claim false: '...' becomes '..' with the default replacement (C53_full_fails), empty results, crash of the fallback."
  },
  {
   "property": "C54",
   "status": "partial",
   "theorems": [
    "Gocfl.C54_survives_partial",
    "Gocfl.C54_full_fails",
    "Gocfl.C54_lost"
   ],
   "note": "Holds for the flat layouts and direct-clean. Full claim false: WriteConfig of the other layouts drops all parameters (C54_full_fails, C54_lost)."
  },
  {
   "property": "C55",
   "status": "partial",
   "theorems": [
    "Gocfl.C55_at_most_one",
    "Gocfl.C55_best_remains_partial",
    "Gocfl.C55_full_fails",
    "Gocfl.C55_full_fails_repeated"
   ],
   "note": "At most one entry of every group remains, nothing is invented and entries not named in any group all stay, for all configurations and sort outcomes; for groups without common or repeated names exactly the present entry listed first remains. With overlapping groups a whole group can vanish, and with a repeated name the wrong entry is kept (both proved)."
  },
  {
   "property": "C56",
   "status": "partial",
   "theorems": [
    "Gocfl.C56_order_partial",
    "Gocfl.C56_order_excluded_partial",
    "Gocfl.C56_others_in_front",
    "Gocfl.C56_full_fails"
   ],
   "note": "For every outcome of the unstable sort nothing is lost or duplicated and named entries come in the listed order. Entries that are not named are not put at the end as documented but in front of all named entries except the first (proved)."
  },
  {
   "property": "C57",
   "status": "partial",
   "theorems": [
    "Gocfl.C57_occupied_refused",
    "Gocfl.C57_opens_own_partial",
    "Gocfl.C57_full_fails",
    "Gocfl.C57_full_fails_missing"
   ],
   "note": "Creating in an occupied folder is refused and writes nothing (all roots). Opening by id returns that id for layouts keeping the folders of the ids in use apart and file systems reporting missing inventories. Full claim fails: layout 0006 maps info:a and urn:a to one folder; a missing inventory is replaced by one without id."
  },
  {
   "property": "C58",
   "status": "partial",
   "theorems": [
    "Gocfl.C58_listed_once",
    "Gocfl.C58_exact_partial",
    "Gocfl.C58_full_fails",
    "Gocfl.C58_full_fails_inside"
   ],
   "note": "Proved for all trees: no folder is listed twice. Exact listing proved for hierarchies without stray files whose objects hold no earlier-sorting entry. Full claim fails: a stray file hides objects; a folder sorting before the declaration is listed as an object."
  },
  {
   "property": "C59",
   "status": "partial",
   "theorems": [
    "Gocfl.C59_recognised_partial",
    "Gocfl.C59_own_declaration",
    "Gocfl.C59_full_fails",
    "Gocfl.C59_full_fails_crlf",
    "Gocfl.C59_backup_blocks"
   ],
   "note": "Own declarations are recognised and everything recognised carries a matching declaration text. Full claim fails: the name pattern is unanchored, so backup files such as old-0=ocfl_1.0.bak count and a second one blocks opening; a declaration with CRLF is not accepted."
  },
  {
   "property": "C60",
   "status": "partial",
   "theorems": [
    "Gocfl.C60_results_partial",
    "Gocfl.C60_mutual_exclusion",
    "Gocfl.C60_no_overlap_partial",
    "Gocfl.C60_full_fails_collision",
    "Gocfl.C60_full_fails"
   ],
   "note": "For every interleaving: mutual exclusion, short paths are right, other results come from the digest of one call's name or of nothing; right if no call enters before the digest is taken. Full claim fails: Sum is taken after Unlock, two calls can return the same path."
  },
  {
   "property": "C61",
   "status": "partial",
   "theorems": [
    "Gocfl.C61_exact_partial",
    "Gocfl.C61_found_again_partial",
    "Gocfl.C61_read_later_partial",
    "Gocfl.C61_full_fails_path",
    "Gocfl.C61_full_fails_case",
    "Gocfl.C61_full_fails"
   ],
   "note": "Where writing and reading go is proved exactly for all extensions and settings (C61_exact_partial); found again for storage type extension, without content-subpath, and for named areas of a clean content-subpath, also after every later history with safe names. Full claim false: storage type path with a default area folder (folder applied twice, in general C61_full_fails_path), storage types with upper-case letters (C61_full_fails_case)."
  },
  {
   "property": "C62",
   "status": "partial",
   "theorems": [
    "Gocfl.C62_bounded_partial",
    "Gocfl.C62_repo_extensions",
    "Gocfl.C62_repo_done",
    "Gocfl.C62_full_fails_forever",
    "Gocfl.C62_full_fails"
   ],
   "note": "Proved for the extensions of the repository (any number of filesystem and migration extensions, whatever they find and do): EndUpdate returns after at most one follow-up version in total; for extensions asking a bounded number of times, at most that many. Full claim false for an extension that always asks (never returns, C62_full_fails_forever)."
  },
  {
   "property": "C63",
   "status": "partial",
   "theorems": [
    "Gocfl.C63_never_blocks_partial",
    "Gocfl.C63_completes_partial",
    "Gocfl.C63_full_fails_close",
    "Gocfl.C63_full_fails"
   ],
   "note": "Proved over all schedules, contents, numbers of extensions and buffer sizes: if extensions do not close the reader they are handed and stop reading at the end of the stream, no execution is infinite, no reachable state is stuck before everything has ended, every pipe delivers the whole content, and addReader fails exactly if an extension fails. The full claim is false: an extension that closes its reader makes the manager return early and addReader block forever (C63_full_fails_close)."
  },
  {
   "property": "C64",
   "status": "partial",
   "theorems": [
    "Gocfl.C64_fix_filename_partial",
    "Gocfl.C64_clean_path_partial",
    "Gocfl.C64_full_fails",
    "Gocfl.C64_full_fails_dots"
   ],
   "note": "Cleaned names contain none of the characters the pattern really covers and no leading blanks or dashes. Full claim fails: the backslash is missing from the pattern and -.. is cleaned to two dots."
  },
  {
   "property": "C65",
   "status": "partial",
   "theorems": [
    "Gocfl.C65_full_fails_area",
    "Gocfl.C65_full_fails",
    "Gocfl.C65_submitted_files_kept_partial"
   ],
   "note": "False when areas are ended separately: EndArea clears the list of submitted files, the final mirror deletion then removes them (C65_full_fails, in general C65_full_fails_area). Proved for sessions without area changes."
  },
  {
   "property": "C66",
   "status": "proved",
   "theorems": [
    "Gocfl.C66_order_independent"
   ],
   "note": "For all iteration orders of the maps."
  },
  {
   "property": "C67",
   "status": "proved",
   "theorems": [
    "Gocfl.C67_verdict"
   ],
   "note": "For every outcome of sorting; findings with a code, which record_code shows for all recorded ones."
  },
  {
   "property": "C68",
   "status": "partial",
   "theorems": [
    "Gocfl.C68_once_partial",
    "Gocfl.C68_once_one_kind_partial",
    "Gocfl.C68_full_fails"
   ],
   "note": "Proved for reports sorted by insertion sort (up to 12) and for sorted reports of one kind of any length, if the concatenated sort keys do not collide; full claim false for colliding keys (C68_full_fails)."
  },
  {
   "property": "C69",
   "status": "partial",
   "theorems": [
    "Gocfl.C69_detail_partial",
    "Gocfl.C69_full_fails_recorded",
    "Gocfl.C69_full_fails"
   ],
   "note": "Full claim false for every recorded finding: the version is dropped by AppendDescription and AppendContext (C69_full_fails_recorded)."
  },
  {
   "property": "C70",
   "status": "partial",
   "theorems": [
    "Gocfl.C70_inside_root_partial",
    "Gocfl.C70_full_fails",
    "Gocfl.C70_full_fails_prefix"
   ],
   "note": "Proved for 0003, 0004 (no short root, no negative numbers), pairtree and direct-clean with UTF encoding. Full claim false: C70_full_fails, C70_full_fails_prefix."
  },
  {
   "property": "C71",
   "status": "partial",
   "theorems": [
    "Gocfl.C71_announced_partial",
    "Gocfl.C71_full_fails"
   ],
   "note": "Proved for the catalogue layouts. Full claim false for direct-clean, direct path and pairtree (C71_full_fails)."
  },
  {
   "property": "C72",
   "status": "partial",
   "theorems": [
    "Gocfl.C72_found_again_partial",
    "Gocfl.C72_full_fails"
   ],
   "note": "Proved if no layout extension reports an error for the id. Full claim fails: CreateObject ignores the layout's error, LoadObjectByID does not."
  },
  {
   "property": "C73",
   "status": "partial",
   "theorems": [
    "Gocfl.C73_from_file_partial",
    "Gocfl.C73_full_fails"
   ],
   "note": "Proved where reading a missing file returns fs.ErrNotExist itself. Full claim fails elsewhere (local disks): an empty inventory is made up."
  },
  {
   "property": "C74",
   "status": "partial",
   "theorems": [
    "Gocfl.C74_not_around_partial",
    "Gocfl.C74_apart_partial",
    "Gocfl.C74_full_fails"
   ],
   "note": "The folder is new and contains no object (all roots); not inside another object with layouts keeping folders apart. Full claim fails: id a/b with the flat layout is created inside object a."
  },
  {
   "property": "C75",
   "status": "proved",
   "theorems": [
    "Gocfl.C75_accepted_content"
   ],
   "note": "C75_accepted_content"
  },
  {
   "property": "C76",
   "status": "partial",
   "theorems": [
    "Gocfl.C76_completes_iff",
    "Gocfl.C76_unloadable",
    "Gocfl.C76_full_fails_folder",
    "Gocfl.C76_full_fails_content",
    "Gocfl.C76_full_fails_inventory",
    "Gocfl.C76_full_fails"
   ],
   "note": "violated; C76_completes_iff says exactly when validation of a loadable object ends; C76_full_fails_folder/_content/_inventory show classes of objects where it panics or aborts"
  },
  {
   "property": "C77",
   "status": "partial",
   "theorems": [
    "Gocfl.C77_inventories_agree_partial",
    "Gocfl.C77_last_agrees_partial",
    "Gocfl.C77_full_fails"
   ],
   "note": "violated: digests of version states are not compared (C77_full_fails); for the head version the manifest is shown to be contained in the root manifest, not the converse (C43); everything else in the statement is proved"
  },
  {
   "property": "C78",
   "status": "proved",
   "theorems": [
    "Gocfl.C78_root_determines_content",
    "Gocfl.C78_tampering_detected"
   ],
   "note": "C78_root_determines_content, C78_tampering_detected; up to collisions on the files concerned"
  },
  {
   "property": "C79",
   "status": "partial",
   "theorems": [
    "Gocfl.C79_valid_accepted_partial",
    "Gocfl.C79_full_fails_sha256",
    "Gocfl.C79_full_fails_content_name",
    "Gocfl.C79_accepted_iff",
    "Gocfl.C79_full_fails"
   ],
   "note": "Exactly when it holds is proved (C79_accepted_iff, local disks): a valid object is accepted iff it uses SHA-512, every version has an inventory and content of its own, and the name of the content directory is no beginning of inventory.json.sha512. The full statement is refuted for each of the others in general (C79_full_fails_sha256, C79_full_fails_content_name)."
  },
  {
   "property": "C80",
   "status": "partial",
   "theorems": [
    "Gocfl.C80_life_valid",
    "Gocfl.C80_life_accepted_partial",
    "Gocfl.C80_life_accepted_iff",
    "Gocfl.C80_full_fails_rename",
    "Gocfl.C80_full_fails",
    "Gocfl.C80_session_valid"
   ],
   "note": "C80_session_valid: a completed session on an intact object leaves a valid object with one version more, and what is read back from it is intact again; C80_life_valid: so does every sequence of sessions from creation on. C80_life_accepted_iff: on local disks validation accepts it exactly if the object has SHA-512, the content directory is no beginning of inventory.json.sha512, and every version brought new content. Violated: C80_full_fails_rename (a session that only renames a file leaves an object whose validation stops with an error on a local disk). Assumed of sessions (CleanSession): names with content paths of their own, safe logical paths without conflicts, no follow-up versions by extensions."
  },
  {
   "property": "C81",
   "status": "proved",
   "theorems": [
    "Gocfl.C81_accepted_root",
    "Gocfl.C81_every_object",
    "Gocfl.C81_accepted_iff_partial"
   ],
   "note": "C81_accepted_root for every tree; C81_every_object without nesting; C81_accepted_iff_partial adds the converse for storage hierarchies as the standard describes them."
  },
  {
   "property": "C82",
   "status": "partial",
   "theorems": [
    "Gocfl.C82_all_reported_partial",
    "Gocfl.C82_completes_iff",
    "Gocfl.C82_full_fails_one_bad",
    "Gocfl.C82_full_fails_declaration",
    "Gocfl.C82_full_fails"
   ],
   "note": "Violated (C82_full_fails): an object whose check aborts, e.g. a version without content on a local disk, ends validation of the root before the status is shown, and a wrong root declaration keeps every object from being validated. C82_completes_iff gives the exact condition; C82_all_reported_partial: where it ends, everything is reported."
  },
  {
   "property": "C83",
   "status": "partial",
   "theorems": [
    "Gocfl.C83_metadata_exact_partial",
    "Gocfl.C83_checksums_partial",
    "Gocfl.C83_life_exact",
    "Gocfl.C83_full_fails"
   ],
   "note": "C83_metadata_exact_partial (all but checksums), C83_checksums_partial (checksums of the first content path), C83_life_exact (every object the tool wrote). Violated for checksums of further content paths: C83_full_fails."
  },
  {
   "property": "C84",
   "status": "partial",
   "theorems": [
    "Gocfl.C84_root_metadata_partial",
    "Gocfl.C84_completes_iff",
    "Gocfl.C84_full_fails"
   ],
   "note": "C84_root_metadata_partial (distinct identifiers), C84_completes_iff (exactly when there is a result). Violated for two objects with one identifier: C84_full_fails."
  },
  {
   "property": "C85",
   "status": "partial",
   "theorems": [
    "Gocfl.C85_root_extraction_partial",
    "Gocfl.C85_full_fails_area",
    "Gocfl.C85_full_fails"
   ],
   "note": "C85_root_extraction_partial (the default area is what is extracted). Violated for other areas, which are ignored: C85_full_fails_area, C85_full_fails."
  },
  {
   "property": "C86",
   "status": "partial",
   "theorems": [
    "Gocfl.C86_completes_iff",
    "Gocfl.C86_reported_exact",
    "Gocfl.C86_stays_readable_partial",
    "Gocfl.C86_full_fails",
    "Gocfl.C86_breaks_root"
   ],
   "note": "C86_completes_iff, C86_reported_exact, C86_stays_readable_partial (index files in the content, one for each new version). Violated by a session that stores no content: C86_full_fails; one such object makes the metadata of the whole root unavailable: C86_breaks_root."
  },
  {
   "property": "C87",
   "status": "partial",
   "theorems": [
    "Gocfl.C87_clean_undoes",
    "Gocfl.C87_clean_first",
    "Gocfl.C87_versions_counted_partial",
    "Gocfl.C87_unused_version_stored",
    "Gocfl.C87_full_fails"
   ],
   "note": "Clean itself is exact: after NewVersion on an unmodified object with versions it gives back the inventory (C87_clean_undoes); the first version stays, or with padded names is an error (C87_clean_first). Sessions never use it: a successful modified session always leaves one version plus one per automatic version (C87_versions_counted_partial), so an automatic version nothing is done in is stored with the files of the one before (C87_unused_version_stored, C87_full_fails)."
  },
  {
   "property": "C88",
   "status": "partial",
   "theorems": [
    "Gocfl.C88_add_exact",
    "Gocfl.C88_session_adds",
    "Gocfl.C88_listed_once_partial",
    "Gocfl.C88_names_counted",
    "Gocfl.C88_full_fails"
   ],
   "note": "A session adds to the listed content paths a sub-list of those its calls build, once per name given (C88_session_adds; C88_add_exact for one operation). Hence listed once, for every session, failed or not and with automatic versions, in which no call names two files for one content (C88_listed_once_partial). AddReader with k names lists the path k times (C88_names_counted, C88_full_fails)."
  },
  {
   "property": "C89",
   "status": "partial",
   "theorems": [
    "Gocfl.C89_source",
    "Gocfl.C89_migration_partial",
    "Gocfl.C89_nothing_lost_partial",
    "Gocfl.C89_full_fails_clash",
    "Gocfl.C89_full_fails_same_name",
    "Gocfl.C89_full_fails_again"
   ],
   "note": "Exact effect proved when no result takes the name of another file; the command is given the content of the file that is recorded as migrated (C89_source). Violated: a result whose name is taken replaces that file (C89_full_fails_clash), strategy add with an unchanged name overwrites the original (C89_full_fails_same_name), and strategy folder on a file that was itself the result of a migration leaves it under the empty name (C89_full_fails_again)."
  },
  {
   "property": "C90",
   "status": "partial",
   "theorems": [
    "Gocfl.C90_collect_exact",
    "Gocfl.C90_full_fails_absent",
    "Gocfl.C90_full_fails",
    "Gocfl.C90_runs_partial"
   ],
   "note": "Proved: exactly which contents are picked (C90_collect_exact: every content in the manifest, whether any version still has it or not), and that migrating contents of the version before never fails an unpadded object whatever the commands do. Violated: every picked content that is not in the version before makes the update fail or panic (C90_full_fails_absent, C90_full_fails)."
  },
  {
   "property": "C91",
   "status": "partial",
   "theorems": [
    "Gocfl.C91_recorded_partial",
    "Gocfl.C91_full_fails_forgotten",
    "Gocfl.C91_once_partial",
    "Gocfl.C91_full_fails"
   ],
   "note": "Proved: every line written can be read back, and all originals are named if lines with the same result have the same original. Violated: records are kept by the digest of the result, so of two originals with identical results only one is named (C91_full_fails_forgotten, C91_full_fails); the other is picked again, and with strategy replace the next update then panics."
  },
  {
   "property": "C92",
   "status": "proved",
   "theorems": [
    "Gocfl.C92_utf",
    "Gocfl.C92_plain",
    "Gocfl.C92_ends"
   ],
   "note": "With and without fallback; the ends of names for results without fallback."
  },
  {
   "property": "C93",
   "status": "partial",
   "theorems": [
    "Gocfl.C93_fallback_partial",
    "Gocfl.C93_long_name_partial",
    "Gocfl.C93_full_fails",
    "Gocfl.C93_full_fails_cleaned"
   ],
   "note": "Proved for names that are too long and sub folders of one character (or at most one sub folder). Violated: sub folders of more characters overlap (C93_full_fails), and for a path that is too long as a whole the digest is that of the cleaned path (C93_full_fails_cleaned)."
  },
  {
   "property": "C94",
   "status": "proved",
   "theorems": [
    "Gocfl.C94_exists_exact",
    "Gocfl.C94_add_keeps",
    "Gocfl.C94_add_then_exists",
    "Gocfl.C94_update_inside"
   ],
   "note": "Directories are implicit in the model; an empty directory counts as absent. The error of fs.Sub/ReadDir for a missing folder is taken to be fs.ErrNotExist."
  },
  {
   "property": "C95",
   "status": "partial",
   "theorems": [
    "Gocfl.C95_update_own_partial",
    "Gocfl.C95_full_fails"
   ],
   "note": "Violated (C95_full_fails): with layout 0006 the ids a and x:a share a folder, update of x:a, which was never added, writes a new version of the object a. Holds for layouts that keep the ids in use apart, with missing inventories reported (C95_update_own_partial)."
  },
  {
   "property": "C96",
   "status": "partial",
   "theorems": [
    "Gocfl.C96_rules_partial",
    "Gocfl.C96_plain_partial",
    "Gocfl.C96_full_fails",
    "Gocfl.C96_full_fails_layout",
    "Gocfl.C96_full_fails_empty"
   ],
   "note": "Violated: Initial.SetExtension sets ExtensionName instead of Extension; with the configurations in data/scicoreextensions and data/nomigrationextensions the stored initial/config.json is loaded as a second manager without rules, which wins (C96_full_fails), and the folder of an object changes (C96_full_fails_layout). A manager without rules is not stored and loading fails (C96_full_fails_empty). Holds if every folder carries the name of its extension and the manager has rules (C96_rules_partial), or there is no initial (C96_plain_partial)."
  },
  {
   "property": "C97",
   "status": "partial",
   "theorems": [
    "Gocfl.C97_ignored_partial",
    "Gocfl.C97_full_fails"
   ],
   "note": "Violated when a storage root is opened: validation is nil there, the warning is a method call on nil, it panics (C97_full_fails). Holds for objects, where there is somebody to report to (C97_ignored_partial)."
  },
  {
   "property": "C98",
   "status": "partial",
   "theorems": [
    "Gocfl.C98_versions_apart",
    "Gocfl.C98_own_file_partial",
    "Gocfl.C98_name_panics_iff",
    "Gocfl.C98_no_panic_partial",
    "Gocfl.C98_full_fails"
   ],
   "note": "Violated by the code: with singleDirectory false (the default) a random number below 16 has one hexadecimal digit and []rune(cs)[1] panics, on average for every fourth thumbnail (C98_full_fails, exact in C98_name_panics_iff). Proved for all sessions and all random numbers: each record names a file of its own with a thumbnail of that file; names of different versions differ; no panic with one folder or numbers from 16. Only storage type extension."
  },
  {
   "property": "C99",
   "status": "partial",
   "theorems": [
    "Gocfl.C99_found_partial",
    "Gocfl.C99_full_fails_failed",
    "Gocfl.C99_full_fails",
    "Gocfl.C99_full_fails_case"
   ],
   "note": "Violated by the code: in an area the area's folder appears twice in the name reported (C99_full_fails); a file whose command failed is reported with a thumbnail data/x/y/digest.png that does not exist (C99_full_fails_failed); with digests in upper case (inventory of another program) GetMetadata of the object fails for ever after (C99_full_fails_case). Proved for storage type extension, lower-case digests, after any session: everything is read, each thumbnail is found under the name reported, no file with a record is handled again."
  },
  {
   "property": "C100",
   "status": "partial",
   "theorems": [
    "Gocfl.C100_recorded_partial",
    "Gocfl.C100_full_fails"
   ],
   "note": "Violated by the code: the thumbnail is remembered under <version>/content/<logical path>, so with another contentDirectory it is stored, never recorded, and a second one is made (C100_full_fails). Proved: recorded, and nothing else made, whenever that name is a content path of the file."
  },
  {
   "property": "C101",
   "status": "partial",
   "theorems": [
    "Gocfl.C101_fits_iff",
    "Gocfl.C101_fits_partial",
    "Gocfl.C101_full_fails"
   ],
   "note": "Violated by the code: the proportions are compared as whole numbers; 300x200 with 256x256 configured gives 384x256 (C101_full_fails). C101_fits_iff: it fits unless the picture is wider in proportion although the whole numbers are equal; C101_fits_partial: pictures not wider in proportion fit."
  },
  {
   "property": "C102",
   "status": "partial",
   "theorems": [
    "Gocfl.C102_reported_partial",
    "Gocfl.C102_same_process_partial",
    "Gocfl.C102_later_partial",
    "Gocfl.C102_full_fails_case",
    "Gocfl.C102_full_fails_object",
    "Gocfl.C102_full_fails"
   ],
   "note": "violated: storage type path with content-subpath (C102_full_fails), storage types with upper case letters (C102_full_fails_case), valid metadata that is no JSON object (C102_full_fails_object); proved for the settings of MetaFindable, for the same process, and for later histories while no newer version has a file at the place"
  },
  {
   "property": "C103",
   "status": "partial",
   "theorems": [
    "Gocfl.C103_stored_iff_partial",
    "Gocfl.C103_full_fails_any",
    "Gocfl.C103_full_fails",
    "Gocfl.C103_full_fails_panic"
   ],
   "note": "violated both ways: without parameter every update panics (nil dereference), with the empty parameter the commands always pass the first version is created without metadata (C103_full_fails, C103_full_fails_panic, C103_full_fails_any); exact condition proved"
  },
  {
   "property": "C104",
   "status": "proved",
   "theorems": [
    "Gocfl.C104_only_valid",
    "Gocfl.C104_invalid_refused",
    "Gocfl.C104_once"
   ],
   "note": ""
  },
  {
   "property": "C105",
   "status": "partial",
   "theorems": [
    "Gocfl.C105_own_file_partial",
    "Gocfl.C105_full_fails",
    "Gocfl.C105_full_fails_shared"
   ],
   "note": "violated: a file name that begins with the identifier loses leading slashes (C105_full_fails); the second object created with the same extension manager gets nothing and reports the metadata of the first (C105_full_fails_shared); proved for addresses and for names with something before the identifier"
  },
  {
   "property": "C106",
   "status": "partial",
   "theorems": [
    "Gocfl.C106_folders_kept_partial",
    "Gocfl.C106_full_fails_echo",
    "Gocfl.C106_full_fails"
   ],
   "note": "violated: with --echo all placeholders vanish from the version as soon as the object already contains an empty file (C106_full_fails_echo, general); proved without echo"
  },
  {
   "property": "C107",
   "status": "partial",
   "theorems": [
    "Gocfl.C107_reported_exact",
    "Gocfl.C107_files_reported_partial",
    "Gocfl.C107_full_fails_known",
    "Gocfl.C107_full_fails",
    "Gocfl.C107_full_fails_folder",
    "Gocfl.C107_read_back_partial",
    "Gocfl.C107_files_reported_later_partial"
   ],
   "note": "first half proved; second half violated: with deduplication nothing is recorded for a file whose content is known (C107_full_fails_known, general), and the first folder of an object is recorded under its path in the source (C107_full_fails_folder); proved for all files without deduplication, for the process itself and, with the settings of C61, for every later process that reads the object"
  },
  {
   "property": "C108",
   "status": "partial",
   "theorems": [
    "Gocfl.C108_completes_iff",
    "Gocfl.C108_full_fails_conversions",
    "Gocfl.C108_full_fails"
   ],
   "note": "violated, and decided exactly: it holds iff no version without records follows one with records (C108_completes_iff); fails for the automatic version whose conversions all fail (C108_full_fails_conversions)"
  },
  {
   "property": "C109",
   "status": "partial",
   "theorems": [
    "Gocfl.C109_completes_iff",
    "Gocfl.C109_full_fails_no_content",
    "Gocfl.C109_full_fails"
   ],
   "note": "violated by every update that streams no content (C109_full_fails_no_content, general); exact condition in C109_completes_iff"
  },
  {
   "property": "C110",
   "status": "partial",
   "theorems": [
    "Gocfl.C110_says_what_and_where",
    "Gocfl.C110_different_objects_partial",
    "Gocfl.C110_object_not_root",
    "Gocfl.C110_full_fails"
   ],
   "note": "violated for folders with quotes: two objects can have the same context (C110_full_fails); text proved in full, difference of objects for folders without quotes"
  },
  {
   "property": "C111",
   "status": "partial",
   "theorems": [
    "Gocfl.C111_documented_partial",
    "Gocfl.C111_full_fails_switch",
    "Gocfl.C111_full_fails",
    "Gocfl.C111_full_fails_default",
    "Gocfl.C111_old_keys"
   ],
   "note": "violated: the documented switch encodeUTF has no effect (C111_full_fails_switch, general), the documented defaults of the replacement strings do not apply (C111_full_fails_default); proved for files that give the strings; old keys proved in full"
  },
  {
   "property": "C112",
   "status": "partial",
   "theorems": [
    "Gocfl.C112_catalogue_partial",
    "Gocfl.C112_full_fails_hashed",
    "Gocfl.C112_full_fails_tuples",
    "Gocfl.C112_full_fails"
   ],
   "note": "violated: no defaults \u2014 the hashed layouts cannot be loaded without digestAlgorithm (C112_full_fails_hashed), 0007 without tupleSize crashes on every id (C112_full_fails_tuples); proved for files that give every parameter"
  },
  {
   "property": "C113",
   "status": "partial",
   "theorems": [
    "Gocfl.C113_object_partial",
    "Gocfl.C113_add_partial",
    "Gocfl.C113_update_partial",
    "Gocfl.C113_full_fails"
   ],
   "note": "Proved for folders with at least one file whose content paths differ, whose logical paths are new, differ and are no folders of each other, and contents without digest collisions among themselves and the stored ones; sessions without acting extensions. Fails for an empty folder: add reports success, the object cannot be opened."
  },
  {
   "property": "C114",
   "status": "partial",
   "theorems": [
    "Gocfl.C114_add_partial",
    "Gocfl.C114_add_named_partial",
    "Gocfl.C114_update_partial",
    "Gocfl.C114_refuted",
    "Gocfl.C114_full_fails_twice",
    "Gocfl.C114_full_fails_form"
   ],
   "note": "Proved, under the hypotheses of C113: what comes out is exactly the source folder and, for each area, the folder of the last argument of the form [a-z]{2,}:path for it (C114_add_partial, C114_update_partial), hence everything named if all arguments have that form and name different areas (C114_add_named_partial; areaArg_iff characterises the regular expression). Violated: two folders for one area - only the last one is added (C114_full_fails_twice); an area name with other characters (Metadata:x) - the folder is skipped and the command succeeds (C114_full_fails_form)."
  },
  {
   "property": "C115",
   "status": "partial",
   "theorems": [
    "Gocfl.C115_add",
    "Gocfl.C115_add_exact",
    "Gocfl.C115_update",
    "Gocfl.C115_validate_root",
    "Gocfl.C115_validate_tampered",
    "Gocfl.C115_extract",
    "Gocfl.C115_full_fails_update",
    "Gocfl.C115_full_fails_add",
    "Gocfl.C115_full_fails_validate",
    "Gocfl.C115_full_fails_extract"
   ],
   "note": "Proved: exit status of update exact (C115_update) and of add exact (C115_add_exact; C115_add up to ids that exist already); closing line of validate (C115_validate_root, C115_validate_tampered) and message of extract (C115_extract). Violated: add of an existing id ends with 0 (C115_full_fails_add), a failed update prints `no errors found` before it fails (C115_full_fails_update), validate ends with 0 for a root that is not valid, even without showing any finding (C115_full_fails_validate), extract ends with 0 if it fails (C115_full_fails_extract)."
  },
  {
   "property": "C116",
   "status": "partial",
   "theorems": [
    "Gocfl.C116_stored_partial",
    "Gocfl.C116_full_fails_content_directory",
    "Gocfl.C116_full_fails_extension"
   ],
   "note": "Proved for storage types area and path, content paths version/content/..., and names of documents and schemas that differ and are in the version or in none. Full statement refuted: with another content directory the function returns nil (errors.Wrapf of a nil error) and no document is written; with storage type extension the METS bytes are written under the PREMIS name."
  },
  {
   "property": "C117",
   "status": "partial",
   "theorems": [
    "Gocfl.C117_listed_exists",
    "Gocfl.C117_lists_partial",
    "Gocfl.C117_grouped",
    "Gocfl.C117_grouped_rest",
    "Gocfl.C117_full_fails_primary",
    "Gocfl.C117_full_fails_place",
    "Gocfl.C117_stored_partial",
    "Gocfl.C117_full_fails_stale"
   ],
   "note": "Soundness with respect to the version described is unconditional; completeness is proved where the primary metadata has a content of its own and contents are stored in the area of their files; also for the version as stored, documents and schemas aside. Files are listed in the group of their area, in the group of contents if they lie in no folder, else in the group of their folder (C117_grouped, C117_grouped_rest). Refuted in full: other files with the content of the primary metadata are dropped; a content of a metadata file that was stored as another file is not located; with storage type path the documents of the previous version are listed with digests the stored version does not have."
  },
  {
   "property": "C118",
   "status": "partial",
   "theorems": [
    "Gocfl.C118_pointers_partial",
    "Gocfl.C118_structure_partial",
    "Gocfl.C118_full_fails_group_ids",
    "Gocfl.C118_full_fails_dangling",
    "Gocfl.C118_full_fails_section_ids",
    "Gocfl.C118_full_fails_unreached"
   ],
   "note": "Proved where contents are stored in the area of their files, at most once as metadata, all areas are known beforehand and the primary metadata is set. Refuted in full by four objects: two top folders that are no areas (both groups have the identifier uuid-), a content shared between a metadata and another file (dangling pointer), metadata stored twice (identifier twice), no primary metadata (sections unreached)."
  },
  {
   "property": "C119",
   "status": "partial",
   "theorems": [
    "Gocfl.C119_objects",
    "Gocfl.C119_links_partial",
    "Gocfl.C119_packing_partial",
    "Gocfl.C119_fixity_partial",
    "Gocfl.C119_premis_partial",
    "Gocfl.C119_migration",
    "Gocfl.C119_full_fails_links",
    "Gocfl.C119_full_fails_packing",
    "Gocfl.C119_full_fails_fixity"
   ],
   "note": "Objects and migration events are proved unconditionally; links, packings and fixity exactly as far as they go: a link is described iff its file is not metadata, packings are those of versions with the content under any name, a fixity is given iff the indexer knows the content. Refuted in full for each of these three."
  },
  {
   "property": "C120",
   "status": "partial",
   "theorems": [
    "Gocfl.C120_types_partial",
    "Gocfl.C120_full_fails_always",
    "Gocfl.C120_full_fails_premis"
   ],
   "note": "Proved for the descriptive sections always and for files exactly if the object uses sha512 (the type is hard-coded). Refuted for every document: the type of the PREMIS document's checksum is empty, as checksumTypeToMets does not know SHA-512."
  },
  {
   "property": "C121",
   "status": "proved",
   "theorems": [
    "Gocfl.C121_session",
    "Gocfl.C121_fixity_recorded",
    "Gocfl.C121_nothing_else"
   ],
   "note": ""
  },
  {
   "property": "C122",
   "status": "partial",
   "theorems": [
    "Gocfl.C122_blocked",
    "Gocfl.C122_failed_blocked",
    "Gocfl.C122_failed_stuck",
    "Gocfl.C122_refused_partial",
    "Gocfl.C122_full_fails"
   ],
   "note": "Violated: as soon as an add of a free id wrote anything (always the declaration file first), every later add does nothing and reports no error (C122_blocked, for every interruption; C122_failed_blocked), while opening and updating the object fail for ever (C122_failed_stuck). Concrete: --fixity with an algorithm that is not allowed (C122_full_fails). Holds for an add that was refused before writing (C122_refused_partial)."
  },
  {
   "property": "C123",
   "status": "partial",
   "theorems": [
    "Gocfl.C123_typed",
    "Gocfl.C123_described_partial",
    "Gocfl.C123_full_fails"
   ],
   "note": "Violated where another file has the same content: the first name of the content is described (C123_full_fails). Proved: exactly the sections with the file's digest carry the type (C123_typed), and the full statement where no other file shares the content (C123_described_partial)."
  },
  {
   "property": "C124",
   "status": "partial",
   "theorems": [
    "Gocfl.C124_download_partial",
    "Gocfl.C124_digest",
    "Gocfl.C124_full_fails"
   ],
   "note": "Violated by requests handled at the same time: bytes of another object are sent (C124_full_fails). Proved for requests handled one after the other, with objects growing in between (C124_download_partial, C124_digest)."
  },
  {
   "property": "C125",
   "status": "partial",
   "theorems": [
    "Gocfl.C125_kept_partial",
    "Gocfl.C125_full_fails"
   ],
   "note": "Violated when an object changes: the old version is shown until another object is asked for (C125_full_fails). Proved while the files do not change (C125_kept_partial)."
  },
  {
   "property": "C126",
   "status": "partial",
   "theorems": [
    "Gocfl.C126_version_partial",
    "Gocfl.C126_manifest_partial",
    "Gocfl.C126_folder_partial",
    "Gocfl.C126_full_fails"
   ],
   "note": "Violated by requests handled at the same time: the id of one object with the files of another (C126_full_fails). Proved for requests handled one after the other (C126_version_partial, C126_manifest_partial)."
  },
  {
   "property": "C127",
   "status": "partial",
   "theorems": [
    "Gocfl.C127_extension_partial",
    "Gocfl.C127_sequential_partial",
    "Gocfl.C127_full_fails"
   ],
   "note": "Violated by .. as name of the extension: any file of the object is given out (C127_full_fails). Proved for ordinary extension names and paths that do not climb above their start, in any interleaving (C127_extension_partial), with the right object one after the other (C127_sequential_partial)."
  },
  {
   "property": "C128",
   "status": "partial",
   "theorems": [
    "Gocfl.C128_link",
    "Gocfl.C128_plain_partial",
    "Gocfl.C128_full_fails",
    "Gocfl.C128_full_fails_other"
   ],
   "note": "Violated by ids with %: they are unescaped twice, and the link to a%2Fb shows a/b (C128_full_fails, C128_full_fails_other). Proved: exactly the ids without %, or with one of / ; and the comma, are found again (C128_link)."
  },
  {
   "property": "C129",
   "status": "partial",
   "theorems": [
    "Gocfl.C129_tree_partial",
    "Gocfl.C129_full_fails"
   ],
   "note": "Violated by blank names: such folders are left out and what they contain appears below another folder (C129_full_fails). Proved for objects without blank names (C129_tree_partial)."
  },
  {
   "property": "C130",
   "status": "partial",
   "theorems": [
    "Gocfl.C130_numbers_partial",
    "Gocfl.C130_full_fails"
   ],
   "note": "Violated for sizes recorded by the extension filesystem: they are expected in another type and never seen (C130_full_fails). Proved where the indexer has recorded them too (C130_numbers_partial)."
  },
  {
   "property": "C131",
   "status": "partial",
   "theorems": [
    "Gocfl.C131_info_partial",
    "Gocfl.C131_full_fails",
    "Gocfl.C131_full_fails_folder"
   ],
   "note": "Violated with metadata in several versions (which one is shown is random, C131_full_fails) and with another content folder (C131_full_fails_folder). Proved where only one such file was ever stored (C131_info_partial)."
  },
  {
   "property": "C132",
   "status": "partial",
   "theorems": [
    "Gocfl.C132_refused",
    "Gocfl.C132_restart_partial",
    "Gocfl.C132_full_fails"
   ],
   "note": "False: with two of the configurations that come with the tool the new storage root is opened without its rules (C132_full_fails, see C96). Proved: refusal of folders that are not empty; for configurations in folders of their own name with rules, the storage root is opened with version, rules and extensions (up to what WriteConfig loses, see C54), validates without findings and has no objects."
  },
  {
   "property": "C133",
   "status": "partial",
   "theorems": [
    "Gocfl.C133_interrupted_partial",
    "Gocfl.C133_full_fails",
    "Gocfl.C133_full_fails_part"
   ],
   "note": "False in two ways: before the first folder of an extension is made, a storage root without layouts is left where an empty folder `extensions` can be read (C133_full_fails); in stores without folders an interruption between two configurations leaves a storage root with some of the layouts, which puts objects in other folders (C133_full_fails_part). Proved for file systems with folders: the root is the one asked for, or it has no extension folder at all."
  },
  {
   "property": "C134",
   "status": "partial",
   "theorems": [
    "Gocfl.C134_apart_partial",
    "Gocfl.C134_ends",
    "Gocfl.C134_full_fails"
   ],
   "note": "False with layouts that give two objects the same folder (C134_full_fails). Proved for any number of commands and every interleaving if the folders of the objects are apart (C134_apart_partial); all commands can always end (C134_ends)."
  },
  {
   "property": "C135",
   "status": "partial",
   "theorems": [
    "Gocfl.C135_versions_kept_partial",
    "Gocfl.C135_lost_update",
    "Gocfl.C135_full_fails",
    "Gocfl.C135_full_fails_damage"
   ],
   "note": "False, there is no locking: for every object and any two updates there is an interleaving in which both succeed and the first is lost (C135_lost_update); two commands adding one object leave a mixture (C135_full_fails), possibly a damaged object (C135_full_fails_damage). Proved: any number of sessions begun from the same inventory leave the files of all its versions as they are, at every moment."
  },
  {
   "property": "C136",
   "status": "partial",
   "theorems": [
    "Gocfl.C136_contents",
    "Gocfl.C136_before_or_after_partial",
    "Gocfl.C136_old_version_partial",
    "Gocfl.C136_full_fails"
   ],
   "note": "False in one window: the root inventory is overwritten in place, and a reader that comes while only part of it is written finds an object that does not load (C136_full_fails). In every other case the extraction is the one before or the one after (C136_before_or_after_partial); a loaded inventory stays good for any later history (C136_contents); old versions extract as before (C136_old_version_partial). Names that leave the version folder are excluded (SafeNames); a single file is read in one moment."
  },
  {
   "property": "C137",
   "status": "partial",
   "theorems": [
    "Gocfl.C137_strings",
    "Gocfl.C137_read_back_partial",
    "Gocfl.C137_codec",
    "Gocfl.C137_one_inventory_partial",
    "Gocfl.C137_full_fails"
   ],
   "note": "C137_read_back_partial proves the round trip on the level of the bytes of the file for all inventories whose strings are text; C137_codec discharges the assumption Codec of the theorems about stored objects for JSON files; C137_strings says exactly which byte strings survive. C137_full_fails: the names ff and fe become the same text."
  },
  {
   "property": "C138",
   "status": "proved",
   "theorems": [
    "Gocfl.C138_part",
    "Gocfl.C138_same",
    "Gocfl.C138_part_of_written",
    "Gocfl.C138_interrupted_partial",
    "Gocfl.C138_old_version_partial"
   ],
   "note": "C138_part, C138_same for arbitrary files, C138_part_of_written for files of the program; C138_interrupted_partial and C138_old_version_partial sharpen C22 and C136 with it."
  },
  {
   "property": "C139",
   "status": "partial",
   "theorems": [
    "Gocfl.C139_unknown_ignored",
    "Gocfl.C139_case_ignored",
    "Gocfl.C139_full_fails"
   ],
   "note": "C139_full_fails with the key `extra`. C139_unknown_ignored: such a member has no influence on what is read. C139_case_ignored: nor has the case of the letters of keys."
  },
  {
   "property": "C140",
   "status": "partial",
   "theorems": [
    "Gocfl.C140_texts",
    "Gocfl.C140_switches_partial",
    "Gocfl.C140_params_partial",
    "Gocfl.C140_fixity",
    "Gocfl.C140_full_fails",
    "Gocfl.C140_full_fails_switch"
   ],
   "note": "C140_texts, C140_fixity (exactly the algorithms of file and command line, all known); C140_switches_partial and C140_params_partial are exact. C140_full_fails: without any configuration file of one's own `--ext-NNNN-mets-descriptive-metadata` is never used, because default.toml has a value; C140_full_fails_switch: `--no-compress=false`."
  },
  {
   "property": "C141",
   "status": "partial",
   "theorems": [
    "Gocfl.C141_texts_partial",
    "Gocfl.C141_switches",
    "Gocfl.C141_params",
    "Gocfl.C141_lost",
    "Gocfl.C141_others",
    "Gocfl.C141_full_fails"
   ],
   "note": "C141_texts_partial, C141_switches, C141_params; C141_lost and C141_others: exactly six options are lost. C141_full_fails: `create` makes a storage root of version 1.1 although the file says 1.0."
  },
  {
   "property": "C142",
   "status": "partial",
   "theorems": [
    "Gocfl.C142_ignored",
    "Gocfl.C142_exact_partial",
    "Gocfl.C142_area",
    "Gocfl.C142_full_fails"
   ],
   "note": "C142_exact_partial: the options that make no difference to what a run takes are exactly twelve (C142_ignored), among them `create --encrypt-aes`, `--aes-key`, `--keypass-file` and `--default-area`; C142_area: the area parameter of extract has none unless `--area` is given as empty. C142_full_fails."
  },
  {
   "property": "C143",
   "status": "partial",
   "theorems": [
    "Gocfl.C143_made_partial",
    "Gocfl.C143_plain",
    "Gocfl.C143_full_fails"
   ],
   "note": "C143_made_partial (exact for init and create), C143_plain: add and update never encrypt. C143_full_fails."
  },
  {
   "property": "C144",
   "status": "partial",
   "theorems": [
    "Gocfl.C144_reading_partial",
    "Gocfl.C144_writing",
    "Gocfl.C144_over_time",
    "Gocfl.C144_not_described",
    "Gocfl.C144_full_fails"
   ],
   "note": "C144_reading_partial for commands that do not write; C144_writing and C144_over_time: after any commands only the last one decides; C144_not_described: the METS document then describes no primary metadata. C144_full_fails."
  },
  {
   "property": "C145",
   "status": "partial",
   "theorems": [
    "Gocfl.C145_created_partial",
    "Gocfl.C145_add",
    "Gocfl.C145_full_fails"
   ],
   "note": "C145_created_partial for create, and for add with the same choice; C145_add says exactly what add does. C145_full_fails."
  },
  {
   "property": "C146",
   "status": "partial",
   "theorems": [
    "Gocfl.C146_reached_partial",
    "Gocfl.C146_full_fails_always",
    "Gocfl.C146_full_fails"
   ],
   "note": "Violated by every command (C146_full_fails_always): Fullpath makes an address the name of a file in the current folder before the kind of storage is chosen, so that no address that does not begin with a slash is ever reached. C146_reached_partial is exact: only init and create pass the S3 configuration on at all. The pattern of S3 addresses belongs to a dependency and is a parameter."
  },
  {
   "property": "C147",
   "status": "partial",
   "theorems": [
    "Gocfl.C147_read_partial",
    "Gocfl.C147_same_partial",
    "Gocfl.C147_full_fails"
   ],
   "note": "C147_read_partial: a reader of the text (part of the specification) recovers everything if no text has a line break and no path begins with three blanks; C147_same_partial. C147_full_fails: a message of three lines passes for a file."
  },
  {
   "property": "C148",
   "status": "partial",
   "theorems": [
    "Gocfl.C148_heading_partial",
    "Gocfl.C148_path",
    "Gocfl.C148_full_fails"
   ],
   "note": "C148_heading_partial for head, fixity algorithms and numbers; C148_path: the line depends on the digest algorithm only. C148_full_fails."
  },
  {
   "property": "C149",
   "status": "partial",
   "theorems": [
    "Gocfl.C149_shown_partial",
    "Gocfl.C149_hidden",
    "Gocfl.C149_no_effect",
    "Gocfl.C149_names",
    "Gocfl.C149_full_fails"
   ],
   "note": "C149_shown_partial, C149_hidden, C149_no_effect (three infos never matter beside others), C149_names (names in any case, unknown ones refused). C149_full_fails: `ObjectVersionState` alone shows no path."
  },
  {
   "property": "C150",
   "status": "partial",
   "theorems": [
    "Gocfl.C150_object_iff",
    "Gocfl.C150_all_partial",
    "Gocfl.C150_one",
    "Gocfl.C150_error_success",
    "Gocfl.C150_full_fails",
    "Gocfl.C150_full_fails_crash"
   ],
   "note": "C150_all_partial: if the status is shown at the end, every object folder was listed completely; C150_one: of one object, either it was loaded and shown, or the listing ends with the line that says it could not be loaded; C150_object_iff says exactly when showing a loaded object crashes; C150_error_success. C150_full_fails, C150_full_fails_crash."
  },
  {
   "property": "C151",
   "status": "partial",
   "theorems": [
    "Gocfl.C151_opens_partial",
    "Gocfl.C151_lost",
    "Gocfl.C151_exact",
    "Gocfl.C151_full_fails"
   ],
   "note": "C151_opens_partial for objects outside of `extensions`, at any point of interruption; C151_exact: after a successful add the storage root opens as before exactly if the folder is not a new one directly in `extensions`; C151_lost. C151_full_fails: `add` of `extensions/a` with the flat layout reports success, afterwards no command opens the storage root."
  },
  {
   "property": "C152",
   "status": "partial",
   "theorems": [
    "Gocfl.C152_session",
    "Gocfl.C152_add",
    "Gocfl.C152_update",
    "Gocfl.C152_options_partial",
    "Gocfl.C152_full_fails"
   ],
   "note": "C152_options_partial (what is given is what the session gets), C152_add, C152_update, C152_session (what is stored and read again, for all clean sessions). C152_full_fails: an empty message."
  },
  {
   "property": "C153",
   "status": "partial",
   "theorems": [
    "Gocfl.C153_refused",
    "Gocfl.C153_blocked",
    "Gocfl.C153_unchanged_partial",
    "Gocfl.C153_stuck",
    "Gocfl.C153_full_fails"
   ],
   "note": "C153_unchanged_partial says exactly when a create changes nothing; C153_blocked: otherwise every later create fails; C153_stuck: if the object was not completed, `add` reports success and does nothing, `update` fails and the object does not open. C153_full_fails: `create --fixity md5` without the extension that allows it."
  },
  {
   "property": "C154",
   "status": "partial",
   "theorems": [
    "Gocfl.C154_object_partial",
    "Gocfl.C154_create_partial",
    "Gocfl.C154_full_fails"
   ],
   "note": "C154_create_partial under the conditions of C113 (paths apart, no collisions) and C132 (extension configurations read back); no errors at validation for SHA-512 and usual content directories (C80). C154_object_partial for `add`. Violated for a source folder without files (C154_full_fails); further exceptions are those of C80, C113, C132 and C151, for which those have negations."
  },
  {
   "property": "C155",
   "status": "partial",
   "theorems": [
    "Gocfl.C155_folder",
    "Gocfl.C155_shown_iff",
    "Gocfl.C155_by_id",
    "Gocfl.C155_accepted_iff_partial",
    "Gocfl.C155_own_partial",
    "Gocfl.C155_both",
    "Gocfl.C155_full_fails"
   ],
   "note": "C155_folder (findings of the whole validation = those of the root ++ \u2026 ++ those of the object alone ++ \u2026), C155_shown_iff, C155_by_id, C155_both. C155_accepted_iff_partial: exact condition of no errors by id; C155_own_partial: it is the object with that id, in storage roots this program wrote with a layout that keeps ids apart. C155_full_fails: layout that omits a prefix."
  },
  {
   "property": "C156",
   "status": "partial",
   "theorems": [
    "Gocfl.C156_folder_partial",
    "Gocfl.C156_by_id",
    "Gocfl.C156_own_partial",
    "Gocfl.C156_full_fails"
   ],
   "note": "C156_folder_partial (objects with different ids; otherwise see C84), C156_by_id (exact), C156_own_partial. C156_full_fails: layout that omits a prefix."
  },
  {
   "property": "C157",
   "status": "partial",
   "theorems": [
    "Gocfl.C157_folder_partial",
    "Gocfl.C157_by_id",
    "Gocfl.C157_own_partial",
    "Gocfl.C157_full_fails"
   ],
   "note": "C157_folder_partial (default area, trees without nesting), C157_by_id (exact), C157_own_partial. C157_full_fails: layout that omits a prefix."
  },
  {
   "property": "C158",
   "status": "partial",
   "theorems": [
    "Gocfl.C158_written_partial",
    "Gocfl.C158_written_iff",
    "Gocfl.C158_objects_partial",
    "Gocfl.C158_full_fails"
   ],
   "note": "C158_written_partial (what is written parses and describes the metadata), C158_written_iff (when), C158_objects_partial (inventory by inventory, with C83 and C84). decMaps_json: inventories read from JSON text meet the hypothesis on maps. C158_full_fails: a folder without object."
  },
  {
   "property": "C159",
   "status": "partial",
   "theorems": [
    "Gocfl.C159_first_partial",
    "Gocfl.C159_never",
    "Gocfl.C159_full_fails"
   ],
   "note": "C159_never: it is no JSON document, for no metadata and no findings; C159_first_partial: its first value is the document. C159_full_fails."
  },
  {
   "property": "C160",
   "status": "partial",
   "theorems": [
    "Gocfl.C160_page_partial",
    "Gocfl.C160_shown",
    "Gocfl.C160_attrs_partial",
    "Gocfl.C160_full_fails"
   ],
   "note": "C160_page_partial: the page after any requests (RightDetail: names exactly those of the inventory, attributes those of the first recorded line). C160_shown: there is a page for every content of the manifest. C160_attrs_partial: after an update of files with different names, read by another process. C160_full_fails: two files with one name. Not modelled: what the page shows of the indexer and of migration; HTML."
  },
  {
   "property": "C161",
   "status": "partial",
   "theorems": [
    "Gocfl.C161_full_fails",
    "Gocfl.C161_object_partial",
    "Gocfl.C161_update_partial"
   ],
   "note": "C161_object_partial: the session at the object, with all that is needed for the next one. C161_update_partial: the command, opening by id and extraction. Hypothesis GoodUpdate.placed: a path not in the head never had the content; one in the head is unchanged or gets a content that is nowhere in the object and in one file only. C161_full_fails: e gets the content of f, and comes out with its old content. Extensions may keep files of their own during the session (AddsFiles)."
  },
  {
   "property": "C162",
   "status": "partial",
   "theorems": [
    "Gocfl.C162_archive_partial",
    "Gocfl.C162_full_fails"
   ],
   "note": "C162_archive_partial: every run (ArchiveRun) with what is asked of the files stated on the history only (Deposit). Hypotheses beside those of Fit: Deposit.placed as in C161, and folders of different objects lie apart. C162_full_fails: two commands, the object gives out an old content. Extensions may keep files of their own during the session (AddsFiles)."
  },
  {
   "property": "C163",
   "status": "partial",
   "theorems": [
    "Gocfl.C163_mirror_partial",
    "Gocfl.C163_only_removed",
    "Gocfl.C163_full_fails"
   ],
   "note": "C163_mirror_partial: the command, opening by id and extraction, if one file is new or changed (and placed as in C161). C163_only_removed: without such a file the storage root stays as it was. C163_full_fails: one of three files is gone from the folder and still comes out. Extensions may keep files of their own during the session (AddsFiles)."
  },
  {
   "property": "C164",
   "status": "partial",
   "theorems": [
    "Gocfl.C164_repeat_partial",
    "Gocfl.C164_failed",
    "Gocfl.C164_as_if",
    "Gocfl.C164_leftover",
    "Gocfl.C164_full_fails"
   ],
   "note": "C164_repeat_partial: runs with any number of updates that failed or were interrupted at any byte before the root inventory was opened for writing (they leave the history as it was) or after it was complete (they count). C164_failed: an update that ended with an error is such a one. C164_as_if: the next update does the same as without the broken one, and the files it writes are the same. C164_full_fails: interrupted when the root inventory has been opened and nothing written yet, the object cannot be opened. C164_leftover: what is left makes the object invalid. Extensions may keep files of their own during the session (AddsFiles)."
  },
  {
   "property": "C165",
   "status": "partial",
   "theorems": [
    "Gocfl.C165_rounds_valid",
    "Gocfl.C165_user_version",
    "Gocfl.C165_full_fails"
   ],
   "note": "C165_rounds_valid: if each version taken by itself is as C80 assumes it, the session succeeds and leaves a valid object with N + 1 + (number of automated versions) versions. C165_user_version: each version the object would have without the automated ones is read back with the same date, message, user and files. C165_full_fails: the version of the user is lost when the extension fails afterwards."
  },
  {
   "property": "C166",
   "status": "partial",
   "theorems": [
    "Gocfl.C166_one_content_partial",
    "Gocfl.C166_described_partial",
    "Gocfl.C166_both",
    "Gocfl.C166_full_fails"
   ],
   "note": "C166_one_content_partial: with one folder (or any text not depending on the order) README.md has this one content in all versions, after any number of sessions, loads in between included. C166_described_partial: each session that changes anything leaves README.md with this content in the version it makes, mirroring mode included. C166_both: a text stored before, not by the last description, gives README.md both digests. C166_full (any number of folders) is refuted by C166_full_fails: orders A, B, A."
  },
  {
   "property": "C167",
   "status": "partial",
   "theorems": [
    "Gocfl.C167_roundtrip",
    "Gocfl.C167_roundtrip_stdout",
    "Gocfl.C167_authentic",
    "Gocfl.C167_no_key_partial",
    "Gocfl.C167_same_file",
    "Gocfl.C167_full_fails"
   ],
   "note": "C167_roundtrip and C167_roundtrip_stdout: sealed segments come out as the data, no other file changes. C167_authentic: whatever the container has become, what comes out is a prefix of the data, and all of it if success is reported. C167_no_key_partial: without key or container nothing changes. C167_same_file: output named as the input leaves an empty file. C167_full (a failing run changes nothing) is refuted by C167_full_fails."
  },
  {
   "property": "C168",
   "status": "partial",
   "theorems": [
    "Gocfl.C168_accepted",
    "Gocfl.C168_migration",
    "Gocfl.C168_the_one_partial",
    "Gocfl.C168_thumbnail",
    "Gocfl.C168_full_fails",
    "Gocfl.C168_accepted_thumbnails"
   ],
   "note": "C168_migration, C168_thumbnail: what is taken is configured for the format (media type), with its id and command; nothing iff none is configured. C168_accepted, C168_accepted_thumbnails: a configuration is accepted iff every function is usable. C168_the_one_partial: if one function only names the format it is taken, in every order. C168_full (same function every time) is refuted by C168_full_fails."
  },
  {
   "property": "C169",
   "status": "partial",
   "theorems": [
    "Gocfl.C169_migration_partial",
    "Gocfl.C169_thumbnail_partial",
    "Gocfl.C169_call_partial",
    "Gocfl.C169_extension_partial",
    "Gocfl.C169_full_fails",
    "Gocfl.C169_full_fails_star",
    "Gocfl.C169_target_other"
   ],
   "note": "C169_migration_partial, C169_thumbnail_partial: exact if no value but the last contains an opening brace; C169_call_partial: the whole call, for content files whose extension has none; C169_extension_partial: same extension if it has no asterisk. C169_target_other: the file the program is to write is never the one it reads. C169_full refuted by C169_full_fails (a.{destination}) and C169_full_fails_star (a.*p)."
  },
  {
   "property": "C170",
   "status": "partial",
   "theorems": [
    "Gocfl.C170_no_crash_partial",
    "Gocfl.C170_reader",
    "Gocfl.C170_damaged",
    "Gocfl.C170_full_fails"
   ],
   "note": "C170_no_crash_partial: no session crashes on an object whose head is there (or a new one), if names given to AddReader can be made. C170_reader: AddReader crashes exactly if they cannot. C170_damaged: with a head that is not there every session crashes. C170_full refuted by C170_full_fails."
  },
  {
   "property": "C171",
   "status": "partial",
   "theorems": [
    "Gocfl.C171_object_partial",
    "Gocfl.C171_update_partial",
    "Gocfl.C171_full_fails"
   ],
   "note": "C171_update_partial (command) and C171_object_partial: for updates as in C161 followed by versions each of which is clean by itself, contents with one digest being the same. C171_full (whatever the extensions do) refuted by C171_full_fails. Extensions may keep files of their own during the session (AddsFiles)."
  },
  {
   "property": "C172",
   "status": "proved",
   "theorems": [
    "Gocfl.C172_place",
    "Gocfl.C172_same"
   ],
   "note": "C172_place is exact; C172_same. Only the code for Unix is modelled."
  },
  {
   "property": "C173",
   "status": "partial",
   "theorems": [
    "Gocfl.C173_created",
    "Gocfl.C173_kept_iff_partial",
    "Gocfl.C173_full_fails",
    "Gocfl.C173_full_fails_config"
   ],
   "note": "C173_created (right after creation, every configuration), C173_kept_iff_partial (exactly when it holds for all updates: the metadata file has neither the name of the configuration nor of the schema). Violated: metadata file schema.json replaces the schema (C173_full_fails), ./config.json passes the check of the name and replaces the configuration (C173_full_fails_config)."
  },
  {
   "property": "C174",
   "status": "partial",
   "theorems": [
    "Gocfl.C174_hashed_partial",
    "Gocfl.C174_hashId_partial",
    "Gocfl.C174_flat_exact",
    "Gocfl.C174_omit_exact",
    "Gocfl.C174_tupleOmit_partial",
    "Gocfl.C174_pairtree_exact",
    "Gocfl.C174_directClean_exact_partial",
    "Gocfl.C174_opens_own_partial",
    "Gocfl.C174_concurrent_partial",
    "Gocfl.C174_full_fails",
    "Gocfl.C174_full_fails_pairtree",
    "Gocfl.C174_full_fails_clean"
   ],
   "note": "Holds for the hashed n-tuple layout without negative numbers (C174_hashed_partial; C174_opens_own_partial uses it for whole histories, C174_concurrent_partial for commands at the same time) and the hash-and-id layout for bytes from 16 on. Exact conditions for the flat, flat-omit-prefix, pairtree layouts and direct clean with UTF encoding; n-tuple-omit-prefix for ASCII rests without slash. Violated by flat (a, a/b), pairtree (ab, abde) and direct clean (a//b, a/b)."
  },
  {
   "property": "C175",
   "status": "partial",
   "theorems": [
    "Gocfl.C175_automated_archive_partial",
    "Gocfl.C175_full_fails"
   ],
   "note": "Holds if each file of a version, of the user or of an extension, is new at its path or has a content that is new (Deposit), versions of extensions consist of single-name readers and files of the extensions' own (C175_automated_archive_partial). Violated where a content moves onto a path that is there (C175_full_fails). Missing: extensions that delete or rename."
  },
  {
   "property": "C176",
   "status": "partial",
   "theorems": [
    "Gocfl.C176_manifest",
    "Gocfl.C176_session",
    "Gocfl.C176_run",
    "Gocfl.C176_asked",
    "Gocfl.C176_add_partial",
    "Gocfl.C176_update_partial",
    "Gocfl.C176_apart",
    "Gocfl.C176_full_fails"
   ],
   "note": "Holds if extensions store no content by themselves (C176_add_partial, C176_update_partial; C176_session and C176_run over time for a digest that is in the object's inventory in lower case and once). Violated otherwise (C176_full_fails): what an extension stores through AddReader is not looked up. C176_asked settles which settings lead to deduplication, C176_apart what happens without."
  },
  {
   "property": "C177",
   "status": "partial",
   "theorems": [
    "Gocfl.C177_create_partial",
    "Gocfl.C177_area",
    "Gocfl.C177_full_fails",
    "Gocfl.C177_echo"
   ],
   "note": "C177_create_partial for SHA-512 and SHA-256 and files that do not conflict; C177_area and C177_echo without restriction, the area being that of the configuration file. Violated for --default-area, which create accepts and ignores (C177_full_fails)."
  },
  {
   "property": "C178",
   "status": "partial",
   "theorems": [
    "Gocfl.C178_other",
    "Gocfl.C178_for_good",
    "Gocfl.C178_exact",
    "Gocfl.C178_full_fails"
   ],
   "note": "Violated (C178_full_fails): create --digest md5 succeeds, and the object made is rejected. Exactly SHA-512 leads to an accepted object (C178_exact); any other algorithm never does, whatever is added (C178_other) and whatever updates follow (C178_for_good). SHA-256 is rejected because of a warning that is reported as an error."
  },
  {
   "property": "C179",
   "status": "proved",
   "theorems": [
    "Gocfl.C179_taken",
    "Gocfl.C179_rules",
    "Gocfl.C179_stored"
   ],
   "note": "C179_taken, C179_rules, C179_stored. For a manager in the folder initial see C96."
  },
  {
   "property": "C180",
   "status": "partial",
   "theorems": [
    "Gocfl.C180_processes_partial",
    "Gocfl.C180_crash",
    "Gocfl.C180_opens_iff",
    "Gocfl.C180_omit",
    "Gocfl.C180_tuple_omit",
    "Gocfl.C180_full_fails",
    "Gocfl.C180_omit_case"
   ],
   "note": "Holds (C180_processes_partial) if each layout can be loaded from what it writes and those in use are the same then, which the default configuration meets; the storage root opens exactly if the former holds (C180_opens_iff). Violated: after create with 0003, 0004 or pairtree every command crashes (C180_crash, C180_full_fails); with 0006 every later command looks in another folder (C180_omit), with 0007 in none (C180_tuple_omit)."
  },
  {
   "property": "C181",
   "status": "proved",
   "theorems": [
    "Gocfl.C181_default",
    "Gocfl.C181_free"
   ],
   "note": "C181_default, without hypotheses on folders; deposits are those of C175 (AutoSession, Deposit), the settings of new objects those of GoodArgs, and an id is added only when it has no object. C181_free: an id whose folder holds no file counts as free, whatever was done with other ids."
  },
  {
   "property": "C182",
   "status": "proved",
   "theorems": [
    "Gocfl.C182_names_iff",
    "Gocfl.C182_accepted"
   ],
   "note": "C182_accepted for objects, C182_names_iff for the checks. Version numbers are unbounded (no 64 bit limit of Atoi)."
  },
  {
   "property": "C183",
   "status": "partial",
   "theorems": [
    "Gocfl.C183_accepted_iff",
    "Gocfl.C183_valid_partial",
    "Gocfl.C183_accepted_partial",
    "Gocfl.C183_full_fails_sha256",
    "Gocfl.C183_full_fails_content",
    "Gocfl.C183_full_fails"
   ],
   "note": "C183_accepted_iff gives the exact conditions of acceptance; valid inventories with sha512 are accepted (C183_valid_partial), and what is accepted is valid exactly if it meets the list in Unchecked (C183_accepted_partial). Violated: sha256 is never accepted (C183_full_fails_sha256); content paths outside the version folders are accepted (C183_full_fails_content), as are conflicts of paths that are not neighbours (C37, C38)."
  },
  {
   "property": "C184",
   "status": "proved",
   "theorems": [
    "Gocfl.C184_accepted_iff",
    "Gocfl.C184_ignored"
   ],
   "note": "C184_accepted_iff: acceptance iff ObjAccepted, a specification over the stored bytes and the decoded inventories only. C184_ignored: acceptance is the same for two folders that differ in logs and extensions only. The list also shows what is not asked: the fixity block may name files that are not in the manifest, a version's inventory may have other digests than the root's for the same logical paths."
  },
  {
   "property": "C185",
   "status": "partial",
   "theorems": [
    "Gocfl.C185_crash_iff",
    "Gocfl.C185_no_crash_partial",
    "Gocfl.C185_short",
    "Gocfl.C185_full_fails"
   ],
   "note": "C185_crash_iff says exactly which configurations crash and on which ids; sensible configurations never do (C185_no_crash_partial), and 0003 and 0004 report an error exactly if the tuples are longer than the digest (C185_short). Violated: the configuration the program itself writes for 0007 crashes on every id (C185_full_fails); negative sizes are accepted."
  },
  {
   "property": "C186",
   "status": "partial",
   "theorems": [
    "Gocfl.C186_update_iff",
    "Gocfl.C186_rejected",
    "Gocfl.C186_updates_partial",
    "Gocfl.C186_full_fails"
   ],
   "note": "C186_update_iff: the object is valid after a session if and only if all old time stamps are whole seconds; C186_updates_partial: then any sequence of sessions keeps it valid and keeps every file of the old versions. Violated: time stamps with fractions are cut off in the rewritten root inventory only, the object becomes invalid (C186_full_fails) and validation reports it (C186_rejected)."
  },
  {
   "property": "C187",
   "status": "partial",
   "theorems": [
    "Gocfl.C187_once_iff",
    "Gocfl.C187_small_partial",
    "Gocfl.C187_full_fails",
    "Gocfl.C187_unseen"
   ],
   "note": "C187_once_iff says exactly when; objects whose digests have small letters, all objects made by the tool among them, keep that for ever (C187_small_partial). Violated: an object of another tool with capital letters in its digests, the same content added again (C187_full_fails); neither loading nor validation reports it (C187_unseen)."
  },
  {
   "property": "C188",
   "status": "partial",
   "theorems": [
    "Gocfl.C188_extract_iff",
    "Gocfl.C188_extract_partial",
    "Gocfl.C188_full_fails"
   ],
   "note": "C188_extract_iff says exactly when: every digest of the version has a content path and is written in small letters; then the files arrive (C188_extract_partial). Violated: validation compares digests regardless of case, extraction compares them exactly, so an object with capital letters in its digests validates but cannot be extracted (C188_full_fails)."
  },
  {
   "property": "C189",
   "status": "partial",
   "theorems": [
    "Gocfl.C189_noticed",
    "Gocfl.C189_sidecar",
    "Gocfl.C189_declaration_lost",
    "Gocfl.C189_change_iff",
    "Gocfl.C189_damage_partial",
    "Gocfl.C189_full_fails",
    "Gocfl.C189_full_fails_beside"
   ],
   "note": "Loss or change of inventories and of every file listed in one of them is noticed (C189_noticed, C189_damage_partial), so is a sidecar that is lost or names another digest (C189_sidecar) and a lost declaration (C189_declaration_lost). C189_change_iff says exactly which changes go unnoticed. Violated by sidecars of other algorithms (C189_full_fails) and by files in a version's folder beside the content directory (C189_full_fails_beside); neither is looked at."
  },
  {
   "property": "C190",
   "status": "partial",
   "theorems": [
    "Gocfl.C190_added_iff",
    "Gocfl.C190_added_partial",
    "Gocfl.C190_full_fails",
    "Gocfl.C190_full_fails_name"
   ],
   "note": "C190_added_iff says exactly which names go unseen (all versions have inventories, as they must on a local disk; C190_added_partial). Violated by files in a version's folder beside the content directory (C190_full_fails) and by names like those of an inventory or a sidecar, with any character for the first dot (C190_full_fails_name)."
  },
  {
   "property": "C191",
   "status": "partial",
   "theorems": [
    "Gocfl.C191_from_disk",
    "Gocfl.C191_to_disk_iff",
    "Gocfl.C191_full_fails"
   ],
   "note": "What validates on a local disk validates everywhere (C191_from_disk). The other way exactly if every version has content and an inventory (C191_to_disk_iff). Violated by a version that only renames or removes files: fs.Stat on the content folder fails and the error is compared with == (C191_full_fails)."
  },
  {
   "property": "C192",
   "status": "proved",
   "theorems": [
    "Gocfl.C192_converted_iff",
    "Gocfl.C192_same_document",
    "Gocfl.C192_yaml",
    "Gocfl.C192_toml",
    "Gocfl.C192_stored"
   ],
   "note": "C192_converted_iff (which documents are converted, no hypotheses), C192_same_document (every place holds the same), C192_yaml, C192_toml, C192_stored (through the extension). Schema, decoders and encoder are parameters."
  },
  {
   "property": "C193",
   "status": "partial",
   "theorems": [
    "Gocfl.C193_created_iff",
    "Gocfl.C193_created_partial",
    "Gocfl.C193_full_fails",
    "Gocfl.C193_not_compared",
    "Gocfl.C193_full_fails_checked"
   ],
   "note": "The declaration is always that of the root, the type agrees exactly if the version is not 2.0 (C193_created_iff, C193_created_partial). Violated for 2.0: newInventory knows only 1.0 and 1.1 and takes 1.0 for everything else (C193_full_fails). Validation never compares the two: a valid object stays valid with the declaration of any other version, even of one that does not exist (C193_not_compared, C193_full_fails_checked)."
  },
  {
   "property": "C194",
   "status": "partial",
   "theorems": [
    "Gocfl.C194_reversed",
    "Gocfl.C194_reversed_iff",
    "Gocfl.C194_characters_iff",
    "Gocfl.C194_characters_partial",
    "Gocfl.C194_full_fails",
    "Gocfl.C194_not_text"
   ],
   "note": "The path is the documented one exactly if all characters in the tuples are ASCII (C194_characters_iff, C194_characters_partial). Violated otherwise: sizes are counted and tuples cut in bytes, so a tuple can end inside a character and the path is no text at all (C194_full_fails, C194_not_text). Reversing works on characters (C194_reversed) and is undone by reversing again exactly for texts (C194_reversed_iff)."
  },
  {
   "property": "C195",
   "status": "partial",
   "theorems": [
    "Gocfl.C195_content_path",
    "Gocfl.C195_state_path",
    "Gocfl.C195_same_iff",
    "Gocfl.C195_inside",
    "Gocfl.C195_safe_names",
    "Gocfl.C195_targets",
    "Gocfl.C195_paths",
    "Gocfl.C195_default_partial",
    "Gocfl.C195_full_fails",
    "Gocfl.C195_full_fails_shipped"
   ],
   "note": "With utfEncode and names that need no fallback two files share a content path exactly if area folder and name are equal (C195_same_iff), the path is inside the content directory (C195_inside), and with the shipped configurations everything comes out again (C195_default_partial; hypotheses only about names and contents). Violated without utfEncode, the default of the extension: c? and c* are stored in one file, the first content is lost without an error (C195_full_fails). Violated with the shipped configuration for a long name and a file named like its fallback path (C195_full_fails_shipped)."
  },
  {
   "property": "C196",
   "status": "proved",
   "theorems": [
    "Gocfl.C196_noticed",
    "Gocfl.C196_loss_iff",
    "Gocfl.C196_where",
    "Gocfl.C196_checked",
    "Gocfl.C196_own"
   ],
   "note": "C196_noticed, C196_loss_iff, C196_where (where a file that may be missing lies), C196_checked (in terms of checkFolder), C196_own (objects the program wrote). C196_loss_iff asks that no digest of manifest or fixity has an empty list of files. On object stores (plain) an inventory of a version other than the first may be missing: C189."
  },
  {
   "property": "C197",
   "status": "partial",
   "theorems": [
    "Gocfl.C197_listed",
    "Gocfl.C197_validates_partial",
    "Gocfl.C197_validates_iff",
    "Gocfl.C197_begun",
    "Gocfl.C197_interrupted",
    "Gocfl.C197_full_fails"
   ],
   "note": "Does not hold in full: an add that is interrupted leaves a folder with a declaration and no inventory, and validation of the whole storage root then fails (C197_interrupted for every run, C197_full_fails). C197_validates_partial: it holds if nothing was left behind, the objects have SHA-512 and are not newer than the storage root, the content directory is no beginning of inventory.json.sha512, and on local disks every version brought content. C197_validates_iff: on local disks in no other case. C197_listed: the folders that are listed. C197_begun: an object without inventory. Missing: storage roots with other layouts, ids that are no URNs, storage roots on object stores for the only-if."
  },
  {
   "property": "C198",
   "status": "partial",
   "theorems": [
    "Gocfl.C198_loss_iff",
    "Gocfl.C198_noticed_partial",
    "Gocfl.C198_full_fails"
   ],
   "note": "Does not hold in full: an object that is lost as a whole is not noticed, nothing at the storage root names its objects (C198_full_fails). C198_loss_iff: on local disks the rest validates exactly if the declaration of the storage root is left and each object is lost as a whole or has lost only files in logs and extensions; so the configurations of the storage root extensions can be lost unnoticed as well. C198_noticed_partial: it is noticed if a file of that object is left. Hypotheses besides those of C197: no file below a folder of an object has the name of an object declaration (content with such a name could be listed as an object of its own). Missing: storage roots with other layouts, ids that are no URNs, object stores."
  },
  {
   "property": "C199",
   "status": "partial",
   "theorems": [
    "Gocfl.C199_change_iff",
    "Gocfl.C199_noticed_partial",
    "Gocfl.C199_full_fails"
   ],
   "note": "Does not hold in full: a declaration or a sidecar may change as long as it says the same, for example with another end of line (C199_full_fails). C199_change_iff: exactly that and files in logs and extensions go unnoticed, on local disks and object stores. C199_noticed_partial: content and inventories. Hypotheses as in C197. Missing: storage roots with other layouts, ids that are no URNs, several files changed at once."
  },
  {
   "property": "C200",
   "status": "partial",
   "theorems": [
    "Gocfl.C200_added_iff",
    "Gocfl.C200_noticed_partial",
    "Gocfl.C200_top_iff",
    "Gocfl.C200_full_fails"
   ],
   "note": "Does not hold in full: a file in a folder of a version beside the content passes (C200_full_fails). C200_added_iff: exactly the files in the extensions of the storage root and those of C190 in an object go unnoticed. C200_noticed_partial: files in folders beside those of the objects, and in the content of a version, are noticed. C200_top_iff: of files directly in the storage root exactly those whose name has a declaration in it are noticed, also in object stores. Hypotheses as in C197. Missing: storage roots with other layouts, ids that are no URNs, folders in object stores."
  }
 ]
}