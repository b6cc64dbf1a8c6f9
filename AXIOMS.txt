Gocfl.C01_non_head_versions_immutable: depends on axioms: [propext, Classical.choice, Quot.sound]
Gocfl.C01_sealed_versions_immutable: depends on axioms: [propext, Classical.choice, Quot.sound]
Gocfl.C02_new_version_copies: depends on axioms: [propext, Classical.choice, Quot.sound]
Gocfl.C03_contiguous_versions: depends on axioms: [propext, Classical.choice, Quot.sound]
Gocfl.C03_contiguous_versions_fresh: depends on axioms: [propext, Classical.choice, Quot.sound]
Gocfl.C04_version_name_round_trip: depends on axioms: [propext, Classical.choice, Quot.sound]
Gocfl.C04_version_names_distinct: depends on axioms: [propext, Classical.choice, Quot.sound]
Gocfl.C05_padding_kept_iff: depends on axioms: [propext, Classical.choice, Quot.sound]
Gocfl.C05_padding_kept_partial: depends on axioms: [propext, Classical.choice, Quot.sound]
Gocfl.C05_full_fails_at: depends on axioms: [propext, Classical.choice, Quot.sound]
Gocfl.C05_full_fails: depends on axioms: [propext, Classical.choice, Quot.sound]
Gocfl.C06_already_exists_exact: depends on axioms: [propext, Classical.choice, Quot.sound]
Gocfl.C06_already_exists_partial: depends on axioms: [propext, Classical.choice, Quot.sound]
Gocfl.C06_full_fails_deleted: depends on axioms: [propext, Classical.choice, Quot.sound]
Gocfl.C06_full_fails_padded: depends on axioms: [propext, Classical.choice, Quot.sound]
Gocfl.C06_full_fails: depends on axioms: [propext, Classical.choice, Quot.sound]
Gocfl.C07_is_update_exact: depends on axioms: [propext, Classical.choice, Quot.sound]
Gocfl.C07_is_update_partial: depends on axioms: [propext, Classical.choice, Quot.sound]
Gocfl.C07_full_fails: depends on axioms: [propext, Classical.choice, Quot.sound]
Gocfl.C08_add_file_partial: depends on axioms: [propext, Classical.choice, Quot.sound]
Gocfl.C08_full_fails_readd: depends on axioms: [propext, Classical.choice, Quot.sound]
Gocfl.C08_full_fails: depends on axioms: [propext, Classical.choice, Quot.sound]
Gocfl.C09_one_digest_per_path_partial: depends on axioms: [propext, Classical.choice, Quot.sound]
Gocfl.C09_one_digest_per_path_no_copy_partial: depends on axioms: [propext, Classical.choice, Quot.sound]
Gocfl.C09_full_fails_copy: depends on axioms: [propext, Classical.choice, Quot.sound]
Gocfl.C09_full_fails: depends on axioms: [propext, Classical.choice, Quot.sound]
Gocfl.C10_no_dangling_digests: depends on axioms: [propext, Classical.choice, Quot.sound]
Gocfl.C10_no_dangling_digests_fresh: depends on axioms: [propext, Classical.choice, Quot.sound]
Gocfl.C11_manifest_referenced: depends on axioms: [propext, Classical.choice, Quot.sound]
Gocfl.C11_manifest_referenced_fresh: depends on axioms: [propext, Classical.choice, Quot.sound]
Gocfl.C11_manifest_digest_without_path: depends on axioms: [propext, Classical.choice, Quot.sound]
Gocfl.C12_manifest_only_grows: depends on axioms: [propext, Classical.choice, Quot.sound]
Gocfl.C13_content_path_inside_partial: depends on axioms: [propext, Classical.choice, Quot.sound]
Gocfl.C13_content_path_clean_name: depends on axioms: [propext, Classical.choice, Quot.sound]
Gocfl.C13_versions_disjoint: depends on axioms: [propext, Classical.choice, Quot.sound]
Gocfl.C13_content_path_ne_nil: depends on axioms: [propext, Classical.choice, Quot.sound]
Gocfl.C13_full_fails_dotdot: depends on axioms: [propext, Classical.choice, Quot.sound]
Gocfl.C13_full_fails: depends on axioms: [propext, Classical.choice, Quot.sound]
Gocfl.C14_delete_exact: depends on axioms: [propext, Classical.choice, Quot.sound]
Gocfl.C15_rename_exact: depends on axioms: [propext, Classical.choice, Quot.sound]
Gocfl.C15_rename_partial: depends on axioms: [propext, Classical.choice, Quot.sound]
Gocfl.C15_full_fails_occupied: depends on axioms: [propext, Classical.choice, Quot.sound]
Gocfl.C15_full_fails: depends on axioms: [propext, Classical.choice, Quot.sound]
Gocfl.C16_copy_exact: depends on axioms: [propext, Classical.choice, Quot.sound]
Gocfl.C16_copy_refused: depends on axioms: [propext, Quot.sound]
Gocfl.C16_copy_partial: depends on axioms: [propext, Classical.choice, Quot.sound]
Gocfl.C16_full_fails_occupied: depends on axioms: [propext, Classical.choice, Quot.sound]
Gocfl.C16_full_fails: depends on axioms: [propext, Classical.choice, Quot.sound]
Gocfl.C17_mirror_exact: depends on axioms: [propext, Classical.choice, Quot.sound]
Gocfl.C17_mirror_partial: depends on axioms: [propext, Classical.choice, Quot.sound]
Gocfl.C17_mirror_whole_object: depends on axioms: [propext, Classical.choice, Quot.sound]
Gocfl.C17_full_fails_boundary: depends on axioms: [propext, Classical.choice, Quot.sound]
Gocfl.C17_full_fails: depends on axioms: [propext, Classical.choice, Quot.sound]
Gocfl.C18_full_fails_checked: depends on axioms: [propext, Classical.choice, Quot.sound]
Gocfl.C18_full_fails: depends on axioms: [propext, Classical.choice, Quot.sound]
Gocfl.C18_vanished_files_removed_partial: depends on axioms: [propext, Classical.choice, Quot.sound]
Gocfl.C19_unflagged_partial: depends on axioms: [propext, Classical.choice, Quot.sound]
Gocfl.C19_full_fails_duplicate: depends on axioms: [propext, Classical.choice, Quot.sound]
Gocfl.C19_full_fails: depends on axioms: [propext, Classical.choice, Quot.sound]
Gocfl.C20_version_listing: depends on axioms: [propext, Classical.choice, Quot.sound]
Gocfl.C20_version_listing_perm: depends on axioms: [propext, Classical.choice, Quot.sound]
Gocfl.C21_crash_before_root_harmless_partial: depends on axioms: [propext, Classical.choice, Quot.sound]
Gocfl.C21_full_fails: depends on axioms: [propext, Classical.choice, Quot.sound]
Gocfl.C22_full_fails_torn: depends on axioms: [propext, Classical.choice, Quot.sound]
Gocfl.C22_crash_points_partial: depends on axioms: [propext, Classical.choice, Quot.sound]
Gocfl.C22_full_fails: depends on axioms: [propext, Classical.choice, Quot.sound]
Gocfl.C23_sidecar_findings: depends on axioms: [propext, Classical.choice, Quot.sound]
Gocfl.C23_silent_means_match: depends on axioms: [propext, Classical.choice, Quot.sound]
Gocfl.C23_full_fails: depends on axioms: [propext, Classical.choice, Quot.sound]
Gocfl.C24_stored_files: depends on axioms: [propext, Classical.choice, Quot.sound]
Gocfl.C24_stored_inventories_load_partial: depends on axioms: [propext, Classical.choice, Quot.sound]
Gocfl.C24_full_fails_empty_path: depends on axioms: [propext, Classical.choice, Quot.sound]
Gocfl.C24_full_fails: depends on axioms: [propext, Classical.choice, Quot.sound]
Gocfl.C25_content_matches_partial: depends on axioms: [propext, Classical.choice, Quot.sound]
Gocfl.C25_distinct_names_partial: depends on axioms: [propext, Classical.choice, Quot.sound]
Gocfl.C25_full_fails: depends on axioms: [propext, Classical.choice, Quot.sound]
Gocfl.C26_unchanged_writes_nothing_partial: depends on axioms: [propext, Classical.choice, Quot.sound]
Gocfl.C26_full_fails_unchecked: depends on axioms: [propext, Classical.choice, Quot.sound]
Gocfl.C26_full_fails: depends on axioms: [propext, Classical.choice, Quot.sound]
Gocfl.C27_verified_content: depends on axioms: [propext, Classical.choice, Quot.sound]
Gocfl.C27_verified_partial: depends on axioms: [propext, Classical.choice, Quot.sound]
Gocfl.C27_full_fails: depends on axioms: [propext, Classical.choice, Quot.sound]
Gocfl.C28_nothing_else: depends on axioms: [propext, Classical.choice, Quot.sound]
Gocfl.C28_complete_partial: depends on axioms: [propext, Classical.choice, Quot.sound]
Gocfl.C28_full_fails_shared: depends on axioms: [propext, Quot.sound]
Gocfl.C28_full_fails: depends on axioms: [propext, Classical.choice, Quot.sound]
Gocfl.C29_old_versions_extract_partial: depends on axioms: [propext, Classical.choice, Quot.sound]
Gocfl.C29_full_fails: depends on axioms: [propext, Classical.choice, Quot.sound]
Gocfl.C30_manifest_partial: depends on axioms: [propext, Classical.choice, Quot.sound]
Gocfl.C30_manifest_readable: depends on axioms: [propext, Quot.sound]
Gocfl.C30_full_fails_newline: depends on axioms: [propext, Classical.choice, Quot.sound]
Gocfl.C30_full_fails: depends on axioms: [propext, Classical.choice, Quot.sound]
Gocfl.C31_selector: depends on axioms: [propext, Classical.choice, Quot.sound]
Gocfl.C32_round_trip_partial: depends on axioms: [propext, Classical.choice, Quot.sound]
Gocfl.C32_full_fails: depends on axioms: [propext, Classical.choice, Quot.sound]
Gocfl.C33_extract_iff: depends on axioms: [propext, Classical.choice, Quot.sound]
Gocfl.C33_isolated_partial: depends on axioms: [propext, Classical.choice, Quot.sound]
Gocfl.C33_full_fails_prefix: depends on axioms: [propext, Classical.choice, Quot.sound]
Gocfl.C33_full_fails: depends on axioms: [propext, Classical.choice, Quot.sound]
Gocfl.C34_sequence_error_iff: depends on axioms: [propext, Classical.choice, Quot.sound]
Gocfl.C35_head_error_iff: depends on axioms: [propext, Classical.choice, Quot.sound]
Gocfl.C36_state_digest_error_iff: depends on axioms: [propext, Classical.choice, Quot.sound]
Gocfl.C36_unreferenced_error_iff: depends on axioms: [propext, Classical.choice, Quot.sound]
Gocfl.C37_reported_is_conflict_partial: depends on axioms: [propext, Classical.choice, Quot.sound]
Gocfl.C37_conflict_reported_partial: depends on axioms: [propext, Classical.choice, Quot.sound]
Gocfl.C37_full_fails_between: depends on axioms: [propext, Classical.choice, Quot.sound]
Gocfl.C37_full_fails: depends on axioms: [propext, Classical.choice, Quot.sound]
Gocfl.C38_full_fails_never_reported: depends on axioms: [propext, Classical.choice, Quot.sound]
Gocfl.C38_reported_is_conflict_partial: depends on axioms: [propext, Classical.choice, Quot.sound]
Gocfl.C38_full_fails: depends on axioms: [propext, Classical.choice, Quot.sound]
Gocfl.C39_unsafe_reported_partial: depends on axioms: [propext, Classical.choice, Quot.sound]
Gocfl.C39_path_errors_iff_partial: depends on axioms: [propext, Classical.choice, Quot.sound]
Gocfl.C39_accepted_safe: depends on axioms: [propext, Classical.choice, Quot.sound]
Gocfl.C39_full_fails: depends on axioms: [propext, Classical.choice, Quot.sound]
Gocfl.C40_crash_iff: depends on axioms: [propext, Classical.choice, Quot.sound]
Gocfl.C40_no_crash_partial: depends on axioms: [propext, Classical.choice, Quot.sound]
Gocfl.C40_full_fails_head: depends on axioms: [propext, Classical.choice, Quot.sound]
Gocfl.C40_full_fails_empty_path: depends on axioms: [propext, Classical.choice, Quot.sound]
Gocfl.C40_full_fails: depends on axioms: [propext, Classical.choice, Quot.sound]
Gocfl.C41_files_match_iff_partial: depends on axioms: [propext, Classical.choice, Quot.sound]
Gocfl.C41_algorithms_present: depends on axioms: [propext, Quot.sound]
Gocfl.C41_full_fails_no_files: depends on axioms: [propext]
Gocfl.C41_full_fails: depends on axioms: [propext, Classical.choice, Quot.sound]
Gocfl.C42_equal_iff: depends on axioms: [propext, Classical.choice, Quot.sound]
Gocfl.C42_equal_partial: depends on axioms: [propext, Classical.choice, Quot.sound]
Gocfl.C42_full_fails_digests: depends on axioms: [propext, Classical.choice, Quot.sound]
Gocfl.C42_full_fails: depends on axioms: [propext, Classical.choice, Quot.sound]
Gocfl.C43_equal_partial: depends on axioms: [propext, Classical.choice, Quot.sound]
Gocfl.C43_agree_equal: depends on axioms: [propext, Classical.choice, Quot.sound]
Gocfl.C43_full_fails_extra: depends on axioms: [propext, Quot.sound]
Gocfl.C43_full_fails: depends on axioms: [propext, Classical.choice, Quot.sound]
Gocfl.C44_crash_order_independent: depends on axioms: [propext, Classical.choice, Quot.sound]
Gocfl.C44_findings_order_independent_partial: depends on axioms: [propext, Classical.choice, Quot.sound]
Gocfl.C44_full_fails: depends on axioms: [propext, Classical.choice, Quot.sound]
Gocfl.C45_nothing_lost: depends on axioms: [propext, Quot.sound]
Gocfl.C46_lookup_partial: depends on axioms: [propext, Classical.choice, Quot.sound]
Gocfl.C46_full_fails: depends on axioms: [propext, Classical.choice, Quot.sound]
Gocfl.C47_distinct_paths_partial: depends on axioms: [propext, Classical.choice, Quot.sound]
Gocfl.C47_total_partial: depends on axioms: [propext, Classical.choice, Quot.sound]
Gocfl.C47_full_fails: depends on axioms: [propext, Classical.choice, Quot.sound]
Gocfl.C48_digest_path_partial: depends on axioms: [propext, Classical.choice, Quot.sound]
Gocfl.C48_full_fails: depends on axioms: [propext, Classical.choice, Quot.sound]
Gocfl.C48_full_fails_collision: depends on axioms: [propext, Classical.choice, Quot.sound]
Gocfl.C49_omits_prefix_partial: depends on axioms: [propext, Quot.sound]
Gocfl.C49_full_fails: depends on axioms: [propext, Classical.choice, Quot.sound]
Gocfl.C49_empty_delimiter: depends on axioms: [propext, Quot.sound]
Gocfl.C50_shape_partial: depends on axioms: [propext, Classical.choice, Quot.sound]
Gocfl.C50_collision_free_partial: depends on axioms: [propext, Classical.choice, Quot.sound]
Gocfl.C50_reversed: depends on axioms: [propext, Classical.choice, Quot.sound]
Gocfl.C50_full_fails: depends on axioms: [propext, Classical.choice, Quot.sound]
Gocfl.C50_full_fails_padding: depends on axioms: [propext, Classical.choice, Quot.sound]
Gocfl.C51_reversible_partial: depends on axioms: [propext, Classical.choice, Quot.sound]
Gocfl.C51_total: depends on axioms: [propext, Quot.sound]
Gocfl.C51_full_fails: depends on axioms: [propext, Classical.choice, Quot.sound]
Gocfl.C51_full_fails_width: does not depend on any axioms
Gocfl.C52_injective_partial: depends on axioms: [propext, Classical.choice, Quot.sound]
Gocfl.C52_injective_clean_partial: depends on axioms: [propext, Classical.choice, Quot.sound]
Gocfl.C52_full_fails: depends on axioms: [propext, Classical.choice, Quot.sound]
Gocfl.C53_path_length: depends on axioms: [propext, Classical.choice, Quot.sound]
Gocfl.C53_utf_safe_partial: depends on axioms: [propext, Classical.choice, Quot.sound]
Gocfl.C53_plain_safe_partial: depends on axioms: [propext, Classical.choice, Quot.sound]
Gocfl.C53_full_fails: depends on axioms: [propext, Classical.choice, Quot.sound]
Gocfl.C53_full_fails_empty: depends on axioms: [propext, Classical.choice, Quot.sound]
Gocfl.C53_fallback_safe_partial: depends on axioms: [propext, Classical.choice, Quot.sound]
Gocfl.C53_full_fails_crash: depends on axioms: [propext, Classical.choice, Quot.sound]
Gocfl.C54_survives_partial: depends on axioms: [propext, Classical.choice, Quot.sound]
Gocfl.C54_full_fails: depends on axioms: [propext, Classical.choice, Quot.sound]
Gocfl.C54_lost: depends on axioms: [propext, Classical.choice, Quot.sound]
Gocfl.C55_at_most_one: depends on axioms: [propext, Quot.sound]
Gocfl.C55_best_remains_partial: depends on axioms: [propext, Classical.choice, Quot.sound]
Gocfl.C55_full_fails: depends on axioms: [propext, Classical.choice, Quot.sound]
Gocfl.C55_full_fails_repeated: depends on axioms: [propext, Classical.choice, Quot.sound]
Gocfl.C56_order_partial: depends on axioms: [propext, Classical.choice, Quot.sound]
Gocfl.C56_order_excluded_partial: depends on axioms: [propext, Classical.choice, Quot.sound]
Gocfl.C56_others_in_front: depends on axioms: [propext, Classical.choice, Quot.sound]
Gocfl.C56_full_fails: depends on axioms: [propext, Classical.choice, Quot.sound]
Gocfl.C57_occupied_refused: depends on axioms: [propext, Classical.choice, Quot.sound]
Gocfl.C57_opens_own_partial: depends on axioms: [propext, Classical.choice, Quot.sound]
Gocfl.C57_full_fails: depends on axioms: [propext, Classical.choice, Quot.sound]
Gocfl.C57_full_fails_missing: depends on axioms: [propext, Classical.choice, Quot.sound]
Gocfl.C58_listed_once: depends on axioms: [propext, Classical.choice, Quot.sound]
Gocfl.C58_exact_partial: depends on axioms: [propext, Classical.choice, Quot.sound]
Gocfl.C58_full_fails: depends on axioms: [propext, Classical.choice, Quot.sound]
Gocfl.C58_full_fails_inside: depends on axioms: [propext, Classical.choice, Quot.sound]
Gocfl.C59_recognised_partial: depends on axioms: [propext, Classical.choice, Quot.sound]
Gocfl.C59_own_declaration: depends on axioms: [propext, Classical.choice, Quot.sound]
Gocfl.C59_full_fails: depends on axioms: [propext, Classical.choice, Quot.sound]
Gocfl.C59_full_fails_crlf: depends on axioms: [propext, Classical.choice, Quot.sound]
Gocfl.C59_backup_blocks: depends on axioms: [propext, Classical.choice, Quot.sound]
Gocfl.C60_results_partial: depends on axioms: [propext, Classical.choice, Quot.sound]
Gocfl.C60_mutual_exclusion: depends on axioms: [propext, Classical.choice, Quot.sound]
Gocfl.C60_no_overlap_partial: depends on axioms: [propext, Classical.choice, Quot.sound]
Gocfl.C60_full_fails_collision: depends on axioms: [propext, Classical.choice, Quot.sound]
Gocfl.C60_full_fails: depends on axioms: [propext, Classical.choice, Quot.sound]
Gocfl.C61_exact_partial: depends on axioms: [propext, Classical.choice, Quot.sound]
Gocfl.C61_found_again_partial: depends on axioms: [propext, Classical.choice, Quot.sound]
Gocfl.C61_read_later_partial: depends on axioms: [propext, Classical.choice, Quot.sound]
Gocfl.C61_full_fails_path: depends on axioms: [propext, Classical.choice, Quot.sound]
Gocfl.C61_full_fails_case: depends on axioms: [propext, Classical.choice, Quot.sound]
Gocfl.C61_full_fails: depends on axioms: [propext, Classical.choice, Quot.sound]
Gocfl.C62_bounded_partial: depends on axioms: [propext, Classical.choice, Quot.sound]
Gocfl.C62_repo_extensions: depends on axioms: [propext, Classical.choice, Quot.sound]
Gocfl.C62_repo_done: depends on axioms: [propext, Classical.choice, Quot.sound]
Gocfl.C62_full_fails_forever: depends on axioms: [propext, Classical.choice, Quot.sound]
Gocfl.C62_full_fails: depends on axioms: [propext, Classical.choice, Quot.sound]
Gocfl.C63_never_blocks_partial: depends on axioms: [propext, Classical.choice, Quot.sound]
Gocfl.C63_completes_partial: depends on axioms: [propext, Classical.choice, Quot.sound]
Gocfl.C63_full_fails_close: depends on axioms: [propext, Classical.choice, Quot.sound]
Gocfl.C63_full_fails: depends on axioms: [propext, Classical.choice, Quot.sound]
Gocfl.C64_fix_filename_partial: depends on axioms: [propext, Classical.choice, Quot.sound]
Gocfl.C64_clean_path_partial: depends on axioms: [propext, Classical.choice, Quot.sound]
Gocfl.C64_full_fails: depends on axioms: [propext, Classical.choice, Quot.sound]
Gocfl.C64_full_fails_dots: depends on axioms: [propext, Classical.choice, Quot.sound]
Gocfl.C65_full_fails_area: depends on axioms: [propext, Classical.choice, Quot.sound]
Gocfl.C65_full_fails: depends on axioms: [propext, Classical.choice, Quot.sound]
Gocfl.C65_submitted_files_kept_partial: depends on axioms: [propext, Classical.choice, Quot.sound]
Gocfl.C66_order_independent: depends on axioms: [propext, Classical.choice, Quot.sound]
Gocfl.C67_verdict: depends on axioms: [propext, Classical.choice, Quot.sound]
Gocfl.C68_once_partial: depends on axioms: [propext, Classical.choice, Quot.sound]
Gocfl.C68_once_one_kind_partial: depends on axioms: [propext, Classical.choice, Quot.sound]
Gocfl.C68_full_fails: depends on axioms: [propext, Classical.choice, Quot.sound]
Gocfl.C69_detail_partial: depends on axioms: [propext, Classical.choice, Quot.sound]
Gocfl.C69_full_fails_recorded: depends on axioms: [propext, Classical.choice, Quot.sound]
Gocfl.C69_full_fails: depends on axioms: [propext, Classical.choice, Quot.sound]
Gocfl.C70_inside_root_partial: depends on axioms: [propext, Classical.choice, Quot.sound]
Gocfl.C70_full_fails: depends on axioms: [propext, Classical.choice, Quot.sound]
Gocfl.C70_full_fails_prefix: depends on axioms: [propext, Classical.choice, Quot.sound]
Gocfl.C71_announced_partial: depends on axioms: [propext, Classical.choice, Quot.sound]
Gocfl.C71_full_fails: depends on axioms: [propext, Classical.choice, Quot.sound]
Gocfl.C72_found_again_partial: depends on axioms: [propext, Classical.choice, Quot.sound]
Gocfl.C72_full_fails: depends on axioms: [propext, Classical.choice, Quot.sound]
Gocfl.C73_from_file_partial: depends on axioms: [propext, Classical.choice, Quot.sound]
Gocfl.C73_full_fails: depends on axioms: [propext, Classical.choice, Quot.sound]
Gocfl.C74_not_around_partial: depends on axioms: [propext, Classical.choice, Quot.sound]
Gocfl.C74_apart_partial: depends on axioms: [propext, Classical.choice, Quot.sound]
Gocfl.C74_full_fails: depends on axioms: [propext, Classical.choice, Quot.sound]
Gocfl.C75_accepted_content: depends on axioms: [propext, Classical.choice, Quot.sound]
Gocfl.C76_completes_iff: depends on axioms: [propext, Classical.choice, Quot.sound]
Gocfl.C76_unloadable: depends on axioms: [propext, Classical.choice, Quot.sound]
Gocfl.C76_full_fails_folder: depends on axioms: [propext, Classical.choice, Quot.sound]
Gocfl.C76_full_fails_content: depends on axioms: [propext, Classical.choice, Quot.sound]
Gocfl.C76_full_fails_inventory: depends on axioms: [propext, Classical.choice, Quot.sound]
Gocfl.C76_full_fails: depends on axioms: [propext, Classical.choice, Quot.sound]
Gocfl.C77_inventories_agree_partial: depends on axioms: [propext, Classical.choice, Quot.sound]
Gocfl.C77_last_agrees_partial: depends on axioms: [propext, Classical.choice, Quot.sound]
Gocfl.C77_full_fails: depends on axioms: [propext, Classical.choice, Quot.sound]
Gocfl.C78_root_determines_content: depends on axioms: [propext, Classical.choice, Quot.sound]
Gocfl.C78_tampering_detected: depends on axioms: [propext, Classical.choice, Quot.sound]
Gocfl.C79_valid_accepted_partial: depends on axioms: [propext, Classical.choice, Quot.sound]
Gocfl.C79_full_fails_sha256: depends on axioms: [propext, Classical.choice, Quot.sound]
Gocfl.C79_full_fails_content_name: depends on axioms: [propext, Classical.choice, Quot.sound]
Gocfl.C79_accepted_iff: depends on axioms: [propext, Classical.choice, Quot.sound]
Gocfl.C79_full_fails: depends on axioms: [propext, Classical.choice, Quot.sound]
Gocfl.C80_life_valid: depends on axioms: [propext, Classical.choice, Quot.sound]
Gocfl.C80_life_accepted_partial: depends on axioms: [propext, Classical.choice, Quot.sound]
Gocfl.C80_life_accepted_iff: depends on axioms: [propext, Classical.choice, Quot.sound]
Gocfl.C80_full_fails_rename: depends on axioms: [propext, Classical.choice, Quot.sound]
Gocfl.C80_full_fails: depends on axioms: [propext, Classical.choice, Quot.sound]
Gocfl.C80_session_valid: depends on axioms: [propext, Classical.choice, Quot.sound]
Gocfl.C81_accepted_root: depends on axioms: [propext, Classical.choice, Quot.sound]
Gocfl.C81_every_object: depends on axioms: [propext, Classical.choice, Quot.sound]
Gocfl.C81_accepted_iff_partial: depends on axioms: [propext, Classical.choice, Quot.sound]
Gocfl.C82_all_reported_partial: depends on axioms: [propext, Classical.choice, Quot.sound]
Gocfl.C82_completes_iff: depends on axioms: [propext, Classical.choice, Quot.sound]
Gocfl.C82_full_fails_one_bad: depends on axioms: [propext, Classical.choice, Quot.sound]
Gocfl.C82_full_fails_declaration: depends on axioms: [propext, Classical.choice, Quot.sound]
Gocfl.C82_full_fails: depends on axioms: [propext, Classical.choice, Quot.sound]
Gocfl.C83_metadata_exact_partial: depends on axioms: [propext, Quot.sound]
Gocfl.C83_checksums_partial: depends on axioms: [propext, Quot.sound]
Gocfl.C83_life_exact: depends on axioms: [propext, Classical.choice, Quot.sound]
Gocfl.C83_full_fails: depends on axioms: [propext, Classical.choice, Quot.sound]
Gocfl.C84_root_metadata_partial: depends on axioms: [propext, Classical.choice, Quot.sound]
Gocfl.C84_completes_iff: depends on axioms: [propext, Classical.choice, Quot.sound]
Gocfl.C84_full_fails: depends on axioms: [propext, Classical.choice, Quot.sound]
Gocfl.C85_root_extraction_partial: depends on axioms: [propext, Classical.choice, Quot.sound]
Gocfl.C85_full_fails_area: depends on axioms: [propext, Classical.choice, Quot.sound]
Gocfl.C85_full_fails: depends on axioms: [propext, Classical.choice, Quot.sound]
Gocfl.C86_completes_iff: depends on axioms: [propext, Classical.choice, Quot.sound]
Gocfl.C86_reported_exact: depends on axioms: [propext, Classical.choice, Quot.sound]
Gocfl.C86_stays_readable_partial: depends on axioms: [propext, Classical.choice, Quot.sound]
Gocfl.C86_full_fails: depends on axioms: [propext, Classical.choice, Quot.sound]
Gocfl.C86_breaks_root: depends on axioms: [propext, Classical.choice, Quot.sound]
Gocfl.C87_clean_undoes: depends on axioms: [propext, Classical.choice, Quot.sound]
Gocfl.C87_clean_first: depends on axioms: [propext, Classical.choice, Quot.sound]
Gocfl.C87_versions_counted_partial: depends on axioms: [propext, Classical.choice, Quot.sound]
Gocfl.C87_unused_version_stored: depends on axioms: [propext, Classical.choice, Quot.sound]
Gocfl.C87_full_fails: depends on axioms: [propext, Classical.choice, Quot.sound]
Gocfl.C88_add_exact: depends on axioms: [propext, Quot.sound]
Gocfl.C88_session_adds: depends on axioms: [propext, Classical.choice, Quot.sound]
Gocfl.C88_listed_once_partial: depends on axioms: [propext, Classical.choice, Quot.sound]
Gocfl.C88_names_counted: depends on axioms: [propext, Classical.choice, Quot.sound]
Gocfl.C88_full_fails: depends on axioms: [propext, Classical.choice, Quot.sound]
Gocfl.C89_source: depends on axioms: [propext, Classical.choice, Quot.sound]
Gocfl.C89_migration_partial: depends on axioms: [propext, Classical.choice, Quot.sound]
Gocfl.C89_nothing_lost_partial: depends on axioms: [propext, Classical.choice, Quot.sound]
Gocfl.C89_full_fails_clash: depends on axioms: [propext, Classical.choice, Quot.sound]
Gocfl.C89_full_fails_same_name: depends on axioms: [propext, Classical.choice, Quot.sound]
Gocfl.C89_full_fails_again: depends on axioms: [propext, Classical.choice, Quot.sound]
Gocfl.C90_collect_exact: depends on axioms: [propext, Quot.sound]
Gocfl.C90_full_fails_absent: depends on axioms: [propext, Classical.choice, Quot.sound]
Gocfl.C90_full_fails: depends on axioms: [propext, Classical.choice, Quot.sound]
Gocfl.C90_runs_partial: depends on axioms: [propext, Classical.choice, Quot.sound]
Gocfl.C91_recorded_partial: depends on axioms: [propext, Quot.sound]
Gocfl.C91_full_fails_forgotten: depends on axioms: [propext, Quot.sound]
Gocfl.C91_once_partial: depends on axioms: [propext, Classical.choice, Quot.sound]
Gocfl.C91_full_fails: depends on axioms: [propext, Classical.choice, Quot.sound]
Gocfl.C92_utf: depends on axioms: [propext, Classical.choice, Quot.sound]
Gocfl.C92_plain: depends on axioms: [propext, Classical.choice, Quot.sound]
Gocfl.C92_ends: depends on axioms: [propext, Classical.choice, Quot.sound]
Gocfl.C93_fallback_partial: depends on axioms: [propext, Classical.choice, Quot.sound]
Gocfl.C93_long_name_partial: depends on axioms: [propext, Classical.choice, Quot.sound]
Gocfl.C93_full_fails: depends on axioms: [propext, Classical.choice, Quot.sound]
Gocfl.C93_full_fails_cleaned: depends on axioms: [propext, Classical.choice, Quot.sound]
Gocfl.C94_exists_exact: depends on axioms: [propext, Classical.choice, Quot.sound]
Gocfl.C94_add_keeps: depends on axioms: [propext, Classical.choice, Quot.sound]
Gocfl.C94_add_then_exists: depends on axioms: [propext, Classical.choice, Quot.sound]
Gocfl.C94_update_inside: depends on axioms: [propext, Classical.choice, Quot.sound]
Gocfl.C95_update_own_partial: depends on axioms: [propext, Classical.choice, Quot.sound]
Gocfl.C95_full_fails: depends on axioms: [propext, Classical.choice, Quot.sound]
Gocfl.C96_rules_partial: depends on axioms: [propext, Classical.choice, Quot.sound]
Gocfl.C96_plain_partial: depends on axioms: [propext, Classical.choice, Quot.sound]
Gocfl.C96_full_fails: depends on axioms: [propext, Classical.choice, Quot.sound]
Gocfl.C96_full_fails_layout: depends on axioms: [propext, Classical.choice, Quot.sound]
Gocfl.C96_full_fails_empty: depends on axioms: [propext, Classical.choice, Quot.sound]
Gocfl.C97_ignored_partial: depends on axioms: [propext, Classical.choice, Quot.sound]
Gocfl.C97_full_fails: depends on axioms: [propext, Classical.choice, Quot.sound]
Gocfl.C98_versions_apart: depends on axioms: [propext, Classical.choice, Quot.sound]
Gocfl.C98_own_file_partial: depends on axioms: [propext, Classical.choice, Quot.sound]
Gocfl.C98_name_panics_iff: depends on axioms: [propext, Classical.choice, Quot.sound]
Gocfl.C98_no_panic_partial: depends on axioms: [propext, Classical.choice, Quot.sound]
Gocfl.C98_full_fails: depends on axioms: [propext, Classical.choice, Quot.sound]
Gocfl.C99_found_partial: depends on axioms: [propext, Classical.choice, Quot.sound]
Gocfl.C99_full_fails_failed: depends on axioms: [propext, Classical.choice, Quot.sound]
Gocfl.C99_full_fails: depends on axioms: [propext, Classical.choice, Quot.sound]
Gocfl.C99_full_fails_case: depends on axioms: [propext, Classical.choice, Quot.sound]
Gocfl.C100_recorded_partial: depends on axioms: [propext, Classical.choice, Quot.sound]
Gocfl.C100_full_fails: depends on axioms: [propext, Classical.choice, Quot.sound]
Gocfl.C101_fits_iff: depends on axioms: [propext, Quot.sound]
Gocfl.C101_fits_partial: depends on axioms: [propext, Quot.sound]
Gocfl.C101_full_fails: does not depend on any axioms
Gocfl.C102_reported_partial: depends on axioms: [propext, Classical.choice, Quot.sound]
Gocfl.C102_same_process_partial: depends on axioms: [propext, Classical.choice, Quot.sound]
Gocfl.C102_later_partial: depends on axioms: [propext, Classical.choice, Quot.sound]
Gocfl.C102_full_fails_case: depends on axioms: [propext, Classical.choice, Quot.sound]
Gocfl.C102_full_fails_object: depends on axioms: [propext, Classical.choice, Quot.sound]
Gocfl.C102_full_fails: depends on axioms: [propext, Classical.choice, Quot.sound]
Gocfl.C103_stored_iff_partial: depends on axioms: [propext, Classical.choice, Quot.sound]
Gocfl.C103_full_fails_any: depends on axioms: [propext, Classical.choice, Quot.sound]
Gocfl.C103_full_fails: depends on axioms: [propext, Classical.choice, Quot.sound]
Gocfl.C103_full_fails_panic: depends on axioms: [propext, Classical.choice, Quot.sound]
Gocfl.C104_only_valid: depends on axioms: [propext, Classical.choice, Quot.sound]
Gocfl.C104_invalid_refused: depends on axioms: [propext, Classical.choice, Quot.sound]
Gocfl.C104_once: depends on axioms: [propext, Classical.choice, Quot.sound]
Gocfl.C105_own_file_partial: depends on axioms: [propext, Classical.choice, Quot.sound]
Gocfl.C105_full_fails: depends on axioms: [propext, Classical.choice, Quot.sound]
Gocfl.C105_full_fails_shared: depends on axioms: [propext, Classical.choice, Quot.sound]
Gocfl.C106_folders_kept_partial: depends on axioms: [propext, Classical.choice, Quot.sound]
Gocfl.C106_full_fails_echo: depends on axioms: [propext, Classical.choice, Quot.sound]
Gocfl.C106_full_fails: depends on axioms: [propext, Classical.choice, Quot.sound]
Gocfl.C107_reported_exact: depends on axioms: [propext, Classical.choice, Quot.sound]
Gocfl.C107_files_reported_partial: depends on axioms: [propext, Classical.choice, Quot.sound]
Gocfl.C107_full_fails_known: depends on axioms: [propext, Classical.choice, Quot.sound]
Gocfl.C107_full_fails: depends on axioms: [propext, Classical.choice, Quot.sound]
Gocfl.C107_full_fails_folder: depends on axioms: [propext, Classical.choice, Quot.sound]
Gocfl.C107_read_back_partial: depends on axioms: [propext, Classical.choice, Quot.sound]
Gocfl.C107_files_reported_later_partial: depends on axioms: [propext, Classical.choice, Quot.sound]
Gocfl.C108_completes_iff: depends on axioms: [propext, Quot.sound]
Gocfl.C108_full_fails_conversions: depends on axioms: [propext, Classical.choice, Quot.sound]
Gocfl.C108_full_fails: depends on axioms: [propext, Classical.choice, Quot.sound]
Gocfl.C109_completes_iff: depends on axioms: [propext, Classical.choice, Quot.sound]
Gocfl.C109_full_fails_no_content: depends on axioms: [propext, Classical.choice, Quot.sound]
Gocfl.C109_full_fails: depends on axioms: [propext, Classical.choice, Quot.sound]
Gocfl.C110_says_what_and_where: depends on axioms: [propext, Classical.choice, Quot.sound]
Gocfl.C110_different_objects_partial: depends on axioms: [propext, Classical.choice, Quot.sound]
Gocfl.C110_object_not_root: depends on axioms: [propext, Classical.choice, Quot.sound]
Gocfl.C110_full_fails: depends on axioms: [propext, Classical.choice, Quot.sound]
Gocfl.C111_documented_partial: depends on axioms: [propext, Classical.choice, Quot.sound]
Gocfl.C111_full_fails_switch: depends on axioms: [propext, Classical.choice, Quot.sound]
Gocfl.C111_full_fails: depends on axioms: [propext, Classical.choice, Quot.sound]
Gocfl.C111_full_fails_default: depends on axioms: [propext, Classical.choice, Quot.sound]
Gocfl.C111_old_keys: depends on axioms: [propext, Classical.choice, Quot.sound]
Gocfl.C112_catalogue_partial: depends on axioms: [propext, Classical.choice, Quot.sound]
Gocfl.C112_full_fails_hashed: depends on axioms: [propext, Classical.choice, Quot.sound]
Gocfl.C112_full_fails_tuples: depends on axioms: [propext, Classical.choice, Quot.sound]
Gocfl.C112_full_fails: depends on axioms: [propext, Classical.choice, Quot.sound]
Gocfl.C113_object_partial: depends on axioms: [propext, Classical.choice, Quot.sound]
Gocfl.C113_add_partial: depends on axioms: [propext, Classical.choice, Quot.sound]
Gocfl.C113_update_partial: depends on axioms: [propext, Classical.choice, Quot.sound]
Gocfl.C113_full_fails: depends on axioms: [propext, Classical.choice, Quot.sound]
Gocfl.C114_add_partial: depends on axioms: [propext, Classical.choice, Quot.sound]
Gocfl.C114_add_named_partial: depends on axioms: [propext, Classical.choice, Quot.sound]
Gocfl.C114_update_partial: depends on axioms: [propext, Classical.choice, Quot.sound]
Gocfl.C114_refuted: depends on axioms: [propext, Classical.choice, Quot.sound]
Gocfl.C114_full_fails_twice: depends on axioms: [propext, Classical.choice, Quot.sound]
Gocfl.C114_full_fails_form: depends on axioms: [propext, Classical.choice, Quot.sound]
Gocfl.C115_add: depends on axioms: [propext, Classical.choice, Quot.sound]
Gocfl.C115_add_exact: depends on axioms: [propext, Classical.choice, Quot.sound]
Gocfl.C115_update: depends on axioms: [propext, Classical.choice, Quot.sound]
Gocfl.C115_validate_root: depends on axioms: [propext, Classical.choice, Quot.sound]
Gocfl.C115_validate_tampered: depends on axioms: [propext, Classical.choice, Quot.sound]
Gocfl.C115_extract: depends on axioms: [propext, Classical.choice, Quot.sound]
Gocfl.C115_full_fails_update: depends on axioms: [propext, Classical.choice, Quot.sound]
Gocfl.C115_full_fails_add: depends on axioms: [propext, Classical.choice, Quot.sound]
Gocfl.C115_full_fails_validate: depends on axioms: [propext, Classical.choice, Quot.sound]
Gocfl.C115_full_fails_extract: depends on axioms: [propext, Classical.choice, Quot.sound]
Gocfl.C116_stored_partial: depends on axioms: [propext, Classical.choice, Quot.sound]
Gocfl.C116_full_fails_content_directory: depends on axioms: [propext, Classical.choice, Quot.sound]
Gocfl.C116_full_fails_extension: depends on axioms: [propext, Classical.choice, Quot.sound]
Gocfl.C117_listed_exists: depends on axioms: [propext, Classical.choice, Quot.sound]
Gocfl.C117_lists_partial: depends on axioms: [propext, Classical.choice, Quot.sound]
Gocfl.C117_grouped: depends on axioms: [propext, Classical.choice, Quot.sound]
Gocfl.C117_grouped_rest: depends on axioms: [propext, Classical.choice, Quot.sound]
Gocfl.C117_full_fails_primary: depends on axioms: [propext, Classical.choice, Quot.sound]
Gocfl.C117_full_fails_place: depends on axioms: [propext, Classical.choice, Quot.sound]
Gocfl.C117_stored_partial: depends on axioms: [propext, Classical.choice, Quot.sound]
Gocfl.C117_full_fails_stale: depends on axioms: [propext, Classical.choice, Quot.sound]
Gocfl.C118_pointers_partial: depends on axioms: [propext, Classical.choice, Quot.sound]
Gocfl.C118_structure_partial: depends on axioms: [propext, Classical.choice, Quot.sound]
Gocfl.C118_full_fails_group_ids: depends on axioms: [propext, Classical.choice, Quot.sound]
Gocfl.C118_full_fails_dangling: depends on axioms: [propext, Classical.choice, Quot.sound]
Gocfl.C118_full_fails_section_ids: depends on axioms: [propext, Classical.choice, Quot.sound]
Gocfl.C118_full_fails_unreached: depends on axioms: [propext, Classical.choice, Quot.sound]
Gocfl.C119_objects: depends on axioms: [propext, Classical.choice, Quot.sound]
Gocfl.C119_links_partial: depends on axioms: [propext, Classical.choice, Quot.sound]
Gocfl.C119_packing_partial: depends on axioms: [propext, Classical.choice, Quot.sound]
Gocfl.C119_fixity_partial: depends on axioms: [propext, Classical.choice, Quot.sound]
Gocfl.C119_premis_partial: depends on axioms: [propext, Classical.choice, Quot.sound]
Gocfl.C119_migration: depends on axioms: [propext, Classical.choice, Quot.sound]
Gocfl.C119_full_fails_links: depends on axioms: [propext, Classical.choice, Quot.sound]
Gocfl.C119_full_fails_packing: depends on axioms: [propext, Classical.choice, Quot.sound]
Gocfl.C119_full_fails_fixity: depends on axioms: [propext, Classical.choice, Quot.sound]
Gocfl.C120_types_partial: depends on axioms: [propext, Classical.choice, Quot.sound]
Gocfl.C120_full_fails_always: depends on axioms: [propext, Classical.choice, Quot.sound]
Gocfl.C120_full_fails_premis: depends on axioms: [propext, Classical.choice, Quot.sound]
Gocfl.C121_session: depends on axioms: [propext, Classical.choice, Quot.sound]
Gocfl.C121_fixity_recorded: depends on axioms: [propext, Classical.choice, Quot.sound]
Gocfl.C121_nothing_else: depends on axioms: [propext, Classical.choice, Quot.sound]
Gocfl.C122_blocked: depends on axioms: [propext, Classical.choice, Quot.sound]
Gocfl.C122_failed_blocked: depends on axioms: [propext, Classical.choice, Quot.sound]
Gocfl.C122_failed_stuck: depends on axioms: [propext, Classical.choice, Quot.sound]
Gocfl.C122_refused_partial: depends on axioms: [propext, Classical.choice, Quot.sound]
Gocfl.C122_full_fails: depends on axioms: [propext, Classical.choice, Quot.sound]
Gocfl.C123_typed: depends on axioms: [propext, Classical.choice, Quot.sound]
Gocfl.C123_described_partial: depends on axioms: [propext, Classical.choice, Quot.sound]
Gocfl.C123_full_fails: depends on axioms: [propext, Classical.choice, Quot.sound]
Gocfl.C124_download_partial: depends on axioms: [propext, Classical.choice, Quot.sound]
Gocfl.C124_digest: depends on axioms: [propext, Classical.choice, Quot.sound]
Gocfl.C124_full_fails: depends on axioms: [propext, Classical.choice, Quot.sound]
Gocfl.C125_kept_partial: depends on axioms: [propext, Classical.choice, Quot.sound]
Gocfl.C125_full_fails: depends on axioms: [propext, Classical.choice, Quot.sound]
Gocfl.C126_version_partial: depends on axioms: [propext, Classical.choice, Quot.sound]
Gocfl.C126_manifest_partial: depends on axioms: [propext, Classical.choice, Quot.sound]
Gocfl.C126_folder_partial: depends on axioms: [propext, Classical.choice, Quot.sound]
Gocfl.C126_full_fails: depends on axioms: [propext, Classical.choice, Quot.sound]
Gocfl.C127_extension_partial: depends on axioms: [propext, Classical.choice, Quot.sound]
Gocfl.C127_sequential_partial: depends on axioms: [propext, Classical.choice, Quot.sound]
Gocfl.C127_full_fails: depends on axioms: [propext, Classical.choice, Quot.sound]
Gocfl.C128_link: depends on axioms: [propext, Classical.choice, Quot.sound]
Gocfl.C128_plain_partial: depends on axioms: [propext, Classical.choice, Quot.sound]
Gocfl.C128_full_fails: depends on axioms: [propext, Classical.choice, Quot.sound]
Gocfl.C128_full_fails_other: depends on axioms: [propext, Classical.choice, Quot.sound]
Gocfl.C129_tree_partial: depends on axioms: [propext, Classical.choice, Quot.sound]
Gocfl.C129_full_fails: depends on axioms: [propext, Classical.choice, Quot.sound]
Gocfl.C130_numbers_partial: depends on axioms: [propext, Classical.choice, Quot.sound]
Gocfl.C130_full_fails: depends on axioms: [propext, Classical.choice, Quot.sound]
Gocfl.C131_info_partial: depends on axioms: [propext, Classical.choice, Quot.sound]
Gocfl.C131_full_fails: depends on axioms: [propext, Classical.choice, Quot.sound]
Gocfl.C131_full_fails_folder: depends on axioms: [propext, Classical.choice, Quot.sound]
Gocfl.C132_refused: depends on axioms: [propext, Classical.choice, Quot.sound]
Gocfl.C132_restart_partial: depends on axioms: [propext, Classical.choice, Quot.sound]
Gocfl.C132_full_fails: depends on axioms: [propext, Classical.choice, Quot.sound]
Gocfl.C133_interrupted_partial: depends on axioms: [propext, Classical.choice, Quot.sound]
Gocfl.C133_full_fails: depends on axioms: [propext, Classical.choice, Quot.sound]
Gocfl.C133_full_fails_part: depends on axioms: [propext, Classical.choice, Quot.sound]
Gocfl.C134_apart_partial: depends on axioms: [propext, Classical.choice, Quot.sound]
Gocfl.C134_ends: depends on axioms: [propext, Quot.sound]
Gocfl.C134_full_fails: depends on axioms: [propext, Classical.choice, Quot.sound]
Gocfl.C135_versions_kept_partial: depends on axioms: [propext, Classical.choice, Quot.sound]
Gocfl.C135_lost_update: depends on axioms: [propext, Classical.choice, Quot.sound]
Gocfl.C135_full_fails: depends on axioms: [propext, Classical.choice, Quot.sound]
Gocfl.C135_full_fails_damage: depends on axioms: [propext, Classical.choice, Quot.sound]
Gocfl.C136_contents: depends on axioms: [propext, Classical.choice, Quot.sound]
Gocfl.C136_before_or_after_partial: depends on axioms: [propext, Classical.choice, Quot.sound]
Gocfl.C136_old_version_partial: depends on axioms: [propext, Classical.choice, Quot.sound]
Gocfl.C136_full_fails: depends on axioms: [propext, Classical.choice, Quot.sound]
Gocfl.C137_strings: depends on axioms: [propext, Classical.choice, Quot.sound]
Gocfl.C137_read_back_partial: depends on axioms: [propext, Classical.choice, Quot.sound]
Gocfl.C137_codec: depends on axioms: [propext, Classical.choice, Quot.sound]
Gocfl.C137_one_inventory_partial: depends on axioms: [propext, Classical.choice, Quot.sound]
Gocfl.C137_full_fails: depends on axioms: [propext]
Gocfl.C138_part: depends on axioms: [propext, Classical.choice, Quot.sound]
Gocfl.C138_same: depends on axioms: [propext, Classical.choice, Quot.sound]
Gocfl.C138_part_of_written: depends on axioms: [propext, Classical.choice, Quot.sound]
Gocfl.C138_interrupted_partial: depends on axioms: [propext, Classical.choice, Quot.sound]
Gocfl.C138_old_version_partial: depends on axioms: [propext, Classical.choice, Quot.sound]
Gocfl.C139_unknown_ignored: depends on axioms: [propext, Classical.choice, Quot.sound]
Gocfl.C139_case_ignored: depends on axioms: [propext, Classical.choice, Quot.sound]
Gocfl.C139_full_fails: depends on axioms: [propext, Classical.choice, Quot.sound]
Gocfl.C140_texts: depends on axioms: [propext, Classical.choice, Quot.sound]
Gocfl.C140_switches_partial: depends on axioms: [propext, Classical.choice, Quot.sound]
Gocfl.C140_params_partial: depends on axioms: [propext, Classical.choice, Quot.sound]
Gocfl.C140_fixity: depends on axioms: [propext, Classical.choice, Quot.sound]
Gocfl.C140_full_fails: depends on axioms: [propext, Classical.choice, Quot.sound]
Gocfl.C140_full_fails_switch: depends on axioms: [propext, Classical.choice, Quot.sound]
Gocfl.C141_texts_partial: depends on axioms: [propext, Classical.choice, Quot.sound]
Gocfl.C141_switches: depends on axioms: [propext, Classical.choice, Quot.sound]
Gocfl.C141_params: depends on axioms: [propext, Classical.choice, Quot.sound]
Gocfl.C141_lost: depends on axioms: [propext, Classical.choice, Quot.sound]
Gocfl.C141_others: depends on axioms: [propext, Classical.choice, Quot.sound]
Gocfl.C141_full_fails: depends on axioms: [propext, Classical.choice, Quot.sound]
Gocfl.C142_ignored: depends on axioms: [propext, Classical.choice, Quot.sound]
Gocfl.C142_exact_partial: depends on axioms: [propext, Classical.choice, Quot.sound]
Gocfl.C142_area: depends on axioms: [propext, Classical.choice, Quot.sound]
Gocfl.C142_full_fails: depends on axioms: [propext, Classical.choice, Quot.sound]
Gocfl.C143_made_partial: depends on axioms: [propext, Classical.choice, Quot.sound]
Gocfl.C143_plain: depends on axioms: [propext, Classical.choice, Quot.sound]
Gocfl.C143_full_fails: depends on axioms: [propext, Classical.choice, Quot.sound]
Gocfl.C144_reading_partial: depends on axioms: [propext, Classical.choice, Quot.sound]
Gocfl.C144_writing: depends on axioms: [propext, Classical.choice, Quot.sound]
Gocfl.C144_over_time: depends on axioms: [propext, Classical.choice, Quot.sound]
Gocfl.C144_not_described: depends on axioms: [propext, Classical.choice, Quot.sound]
Gocfl.C144_full_fails: depends on axioms: [propext, Classical.choice, Quot.sound]
Gocfl.C145_created_partial: depends on axioms: [propext, Classical.choice, Quot.sound]
Gocfl.C145_add: depends on axioms: [propext, Classical.choice, Quot.sound]
Gocfl.C145_full_fails: depends on axioms: [propext, Classical.choice, Quot.sound]
Gocfl.C146_reached_partial: depends on axioms: [propext, Classical.choice, Quot.sound]
Gocfl.C146_full_fails_always: depends on axioms: [propext, Classical.choice, Quot.sound]
Gocfl.C146_full_fails: depends on axioms: [propext, Classical.choice, Quot.sound]
Gocfl.C147_read_partial: depends on axioms: [propext, Classical.choice, Quot.sound]
Gocfl.C147_same_partial: depends on axioms: [propext, Classical.choice, Quot.sound]
Gocfl.C147_full_fails: depends on axioms: [propext, Classical.choice, Quot.sound]
Gocfl.C148_heading_partial: depends on axioms: [propext, Classical.choice, Quot.sound]
Gocfl.C148_path: depends on axioms: [propext, Classical.choice, Quot.sound]
Gocfl.C148_full_fails: depends on axioms: [propext, Classical.choice, Quot.sound]
Gocfl.C149_shown_partial: depends on axioms: [propext, Classical.choice, Quot.sound]
Gocfl.C149_hidden: depends on axioms: [propext, Classical.choice, Quot.sound]
Gocfl.C149_no_effect: depends on axioms: [propext, Classical.choice, Quot.sound]
Gocfl.C149_names: depends on axioms: [propext, Classical.choice, Quot.sound]
Gocfl.C149_full_fails: depends on axioms: [propext, Classical.choice, Quot.sound]
Gocfl.C150_object_iff: depends on axioms: [propext, Classical.choice, Quot.sound]
Gocfl.C150_all_partial: depends on axioms: [propext, Classical.choice, Quot.sound]
Gocfl.C150_one: depends on axioms: [propext, Classical.choice, Quot.sound]
Gocfl.C150_error_success: depends on axioms: [propext, Classical.choice, Quot.sound]
Gocfl.C150_full_fails: depends on axioms: [propext, Classical.choice, Quot.sound]
Gocfl.C150_full_fails_crash: depends on axioms: [propext, Classical.choice, Quot.sound]
Gocfl.C151_opens_partial: depends on axioms: [propext, Classical.choice, Quot.sound]
Gocfl.C151_lost: depends on axioms: [propext, Classical.choice, Quot.sound]
Gocfl.C151_exact: depends on axioms: [propext, Classical.choice, Quot.sound]
Gocfl.C151_full_fails: depends on axioms: [propext, Classical.choice, Quot.sound]
Gocfl.C152_session: depends on axioms: [propext, Classical.choice, Quot.sound]
Gocfl.C152_add: depends on axioms: [propext, Classical.choice, Quot.sound]
Gocfl.C152_update: depends on axioms: [propext, Classical.choice, Quot.sound]
Gocfl.C152_options_partial: depends on axioms: [propext, Classical.choice, Quot.sound]
Gocfl.C152_full_fails: depends on axioms: [propext, Classical.choice, Quot.sound]
Gocfl.C153_refused: depends on axioms: [propext, Classical.choice, Quot.sound]
Gocfl.C153_blocked: depends on axioms: [propext, Classical.choice, Quot.sound]
Gocfl.C153_unchanged_partial: depends on axioms: [propext, Classical.choice, Quot.sound]
Gocfl.C153_stuck: depends on axioms: [propext, Classical.choice, Quot.sound]
Gocfl.C153_full_fails: depends on axioms: [propext, Classical.choice, Quot.sound]
Gocfl.C154_object_partial: depends on axioms: [propext, Classical.choice, Quot.sound]
Gocfl.C154_create_partial: depends on axioms: [propext, Classical.choice, Quot.sound]
Gocfl.C154_full_fails: depends on axioms: [propext, Classical.choice, Quot.sound]
Gocfl.C155_folder: depends on axioms: [propext, Classical.choice, Quot.sound]
Gocfl.C155_shown_iff: depends on axioms: [propext, Classical.choice, Quot.sound]
Gocfl.C155_by_id: depends on axioms: [propext, Classical.choice, Quot.sound]
Gocfl.C155_accepted_iff_partial: depends on axioms: [propext, Classical.choice, Quot.sound]
Gocfl.C155_own_partial: depends on axioms: [propext, Classical.choice, Quot.sound]
Gocfl.C155_both: depends on axioms: [propext, Classical.choice, Quot.sound]
Gocfl.C155_full_fails: depends on axioms: [propext, Classical.choice, Quot.sound]
Gocfl.C156_folder_partial: depends on axioms: [propext, Classical.choice, Quot.sound]
Gocfl.C156_by_id: depends on axioms: [propext, Classical.choice, Quot.sound]
Gocfl.C156_own_partial: depends on axioms: [propext, Classical.choice, Quot.sound]
Gocfl.C156_full_fails: depends on axioms: [propext, Classical.choice, Quot.sound]
Gocfl.C157_folder_partial: depends on axioms: [propext, Classical.choice, Quot.sound]
Gocfl.C157_by_id: depends on axioms: [propext, Classical.choice, Quot.sound]
Gocfl.C157_own_partial: depends on axioms: [propext, Classical.choice, Quot.sound]
Gocfl.C157_full_fails: depends on axioms: [propext, Classical.choice, Quot.sound]
Gocfl.C158_written_partial: depends on axioms: [propext, Classical.choice, Quot.sound]
Gocfl.C158_written_iff: depends on axioms: [propext, Classical.choice, Quot.sound]
Gocfl.C158_objects_partial: depends on axioms: [propext, Classical.choice, Quot.sound]
Gocfl.C158_full_fails: depends on axioms: [propext, Classical.choice, Quot.sound]
Gocfl.C159_first_partial: depends on axioms: [propext, Classical.choice, Quot.sound]
Gocfl.C159_never: depends on axioms: [propext, Classical.choice, Quot.sound]
Gocfl.C159_full_fails: depends on axioms: [propext, Classical.choice, Quot.sound]
Gocfl.C160_page_partial: depends on axioms: [propext, Classical.choice, Quot.sound]
Gocfl.C160_shown: depends on axioms: [propext, Classical.choice, Quot.sound]
Gocfl.C160_attrs_partial: depends on axioms: [propext, Classical.choice, Quot.sound]
Gocfl.C160_full_fails: depends on axioms: [propext, Classical.choice, Quot.sound]
Gocfl.C161_full_fails: depends on axioms: [propext, Classical.choice, Quot.sound]
Gocfl.C161_object_partial: depends on axioms: [propext, Classical.choice, Quot.sound]
Gocfl.C161_update_partial: depends on axioms: [propext, Classical.choice, Quot.sound]
Gocfl.C162_archive_partial: depends on axioms: [propext, Classical.choice, Quot.sound]
Gocfl.C162_full_fails: depends on axioms: [propext, Classical.choice, Quot.sound]
Gocfl.C163_mirror_partial: depends on axioms: [propext, Classical.choice, Quot.sound]
Gocfl.C163_only_removed: depends on axioms: [propext, Classical.choice, Quot.sound]
Gocfl.C163_full_fails: depends on axioms: [propext, Classical.choice, Quot.sound]
Gocfl.C164_repeat_partial: depends on axioms: [propext, Classical.choice, Quot.sound]
Gocfl.C164_failed: depends on axioms: [propext, Classical.choice, Quot.sound]
Gocfl.C164_as_if: depends on axioms: [propext, Classical.choice, Quot.sound]
Gocfl.C164_leftover: depends on axioms: [propext, Classical.choice, Quot.sound]
Gocfl.C164_full_fails: depends on axioms: [propext, Classical.choice, Quot.sound]
Gocfl.C165_rounds_valid: depends on axioms: [propext, Classical.choice, Quot.sound]
Gocfl.C165_user_version: depends on axioms: [propext, Classical.choice, Quot.sound]
Gocfl.C165_full_fails: depends on axioms: [propext, Classical.choice, Quot.sound]
Gocfl.C166_one_content_partial: depends on axioms: [propext, Classical.choice, Quot.sound]
Gocfl.C166_described_partial: depends on axioms: [propext, Classical.choice, Quot.sound]
Gocfl.C166_both: depends on axioms: [propext, Classical.choice, Quot.sound]
Gocfl.C166_full_fails: depends on axioms: [propext, Classical.choice, Quot.sound]
Gocfl.C167_roundtrip: depends on axioms: [propext, Classical.choice, Quot.sound]
Gocfl.C167_roundtrip_stdout: depends on axioms: [propext, Classical.choice, Quot.sound]
Gocfl.C167_authentic: depends on axioms: [propext, Classical.choice, Quot.sound]
Gocfl.C167_no_key_partial: depends on axioms: [propext, Classical.choice, Quot.sound]
Gocfl.C167_same_file: depends on axioms: [propext, Classical.choice, Quot.sound]
Gocfl.C167_full_fails: depends on axioms: [propext, Classical.choice, Quot.sound]
Gocfl.C168_accepted: depends on axioms: [propext, Classical.choice, Quot.sound]
Gocfl.C168_migration: depends on axioms: [propext, Classical.choice, Quot.sound]
Gocfl.C168_the_one_partial: depends on axioms: [propext, Classical.choice, Quot.sound]
Gocfl.C168_thumbnail: depends on axioms: [propext, Quot.sound]
Gocfl.C168_full_fails: depends on axioms: [propext, Classical.choice, Quot.sound]
Gocfl.C168_accepted_thumbnails: depends on axioms: [propext, Quot.sound]
Gocfl.C169_migration_partial: depends on axioms: [propext, Classical.choice, Quot.sound]
Gocfl.C169_thumbnail_partial: depends on axioms: [propext, Classical.choice, Quot.sound]
Gocfl.C169_call_partial: depends on axioms: [propext, Classical.choice, Quot.sound]
Gocfl.C169_extension_partial: depends on axioms: [propext, Classical.choice, Quot.sound]
Gocfl.C169_full_fails: depends on axioms: [propext, Classical.choice, Quot.sound]
Gocfl.C169_full_fails_star: depends on axioms: [propext, Classical.choice, Quot.sound]
Gocfl.C169_target_other: depends on axioms: [propext, Classical.choice, Quot.sound]
Gocfl.C170_no_crash_partial: depends on axioms: [propext, Classical.choice, Quot.sound]
Gocfl.C170_reader: depends on axioms: [propext, Classical.choice, Quot.sound]
Gocfl.C170_damaged: depends on axioms: [propext, Classical.choice, Quot.sound]
Gocfl.C170_full_fails: depends on axioms: [propext, Classical.choice, Quot.sound]
Gocfl.C171_object_partial: depends on axioms: [propext, Classical.choice, Quot.sound]
Gocfl.C171_update_partial: depends on axioms: [propext, Classical.choice, Quot.sound]
Gocfl.C171_full_fails: depends on axioms: [propext, Classical.choice, Quot.sound]
Gocfl.C172_place: depends on axioms: [propext, Classical.choice, Quot.sound]
Gocfl.C172_same: depends on axioms: [propext, Classical.choice, Quot.sound]
Gocfl.C173_created: depends on axioms: [propext, Classical.choice, Quot.sound]
Gocfl.C173_kept_iff_partial: depends on axioms: [propext, Classical.choice, Quot.sound]
Gocfl.C173_full_fails: depends on axioms: [propext, Classical.choice, Quot.sound]
Gocfl.C173_full_fails_config: depends on axioms: [propext, Classical.choice, Quot.sound]
Gocfl.C174_hashed_partial: depends on axioms: [propext, Classical.choice, Quot.sound]
Gocfl.C174_hashId_partial: depends on axioms: [propext, Classical.choice, Quot.sound]
Gocfl.C174_flat_exact: depends on axioms: [propext, Classical.choice, Quot.sound]
Gocfl.C174_omit_exact: depends on axioms: [propext, Classical.choice, Quot.sound]
Gocfl.C174_tupleOmit_partial: depends on axioms: [propext, Classical.choice, Quot.sound]
Gocfl.C174_pairtree_exact: depends on axioms: [propext, Classical.choice, Quot.sound]
Gocfl.C174_directClean_exact_partial: depends on axioms: [propext, Classical.choice, Quot.sound]
Gocfl.C174_opens_own_partial: depends on axioms: [propext, Classical.choice, Quot.sound]
Gocfl.C174_concurrent_partial: depends on axioms: [propext, Classical.choice, Quot.sound]
Gocfl.C174_full_fails: depends on axioms: [propext, Classical.choice, Quot.sound]
Gocfl.C174_full_fails_pairtree: depends on axioms: [propext, Classical.choice, Quot.sound]
Gocfl.C174_full_fails_clean: depends on axioms: [propext, Classical.choice, Quot.sound]
Gocfl.C175_automated_archive_partial: depends on axioms: [propext, Classical.choice, Quot.sound]
Gocfl.C175_full_fails: depends on axioms: [propext, Classical.choice, Quot.sound]
Gocfl.C176_manifest: depends on axioms: [propext, Classical.choice, Quot.sound]
Gocfl.C176_session: depends on axioms: [propext, Classical.choice, Quot.sound]
Gocfl.C176_run: depends on axioms: [propext, Classical.choice, Quot.sound]
Gocfl.C176_asked: depends on axioms: [propext, Classical.choice, Quot.sound]
Gocfl.C176_add_partial: depends on axioms: [propext, Classical.choice, Quot.sound]
Gocfl.C176_update_partial: depends on axioms: [propext, Classical.choice, Quot.sound]
Gocfl.C176_apart: depends on axioms: [propext, Classical.choice, Quot.sound]
Gocfl.C176_full_fails: depends on axioms: [propext, Classical.choice, Quot.sound]
Gocfl.C177_create_partial: depends on axioms: [propext, Classical.choice, Quot.sound]
Gocfl.C177_area: depends on axioms: [propext, Classical.choice, Quot.sound]
Gocfl.C177_full_fails: depends on axioms: [propext, Classical.choice, Quot.sound]
Gocfl.C177_echo: depends on axioms: [propext, Classical.choice, Quot.sound]
Gocfl.C178_other: depends on axioms: [propext, Classical.choice, Quot.sound]
Gocfl.C178_for_good: depends on axioms: [propext, Classical.choice, Quot.sound]
Gocfl.C178_exact: depends on axioms: [propext, Classical.choice, Quot.sound]
Gocfl.C178_full_fails: depends on axioms: [propext, Classical.choice, Quot.sound]
Gocfl.C179_taken: depends on axioms: [propext, Classical.choice, Quot.sound]
Gocfl.C179_rules: depends on axioms: [propext, Classical.choice, Quot.sound]
Gocfl.C179_stored: depends on axioms: [propext, Classical.choice, Quot.sound]
Gocfl.C180_processes_partial: depends on axioms: [propext, Classical.choice, Quot.sound]
Gocfl.C180_crash: depends on axioms: [propext, Classical.choice, Quot.sound]
Gocfl.C180_opens_iff: depends on axioms: [propext, Classical.choice, Quot.sound]
Gocfl.C180_omit: depends on axioms: [propext, Classical.choice, Quot.sound]
Gocfl.C180_tuple_omit: depends on axioms: [propext, Classical.choice, Quot.sound]
Gocfl.C180_full_fails: depends on axioms: [propext, Classical.choice, Quot.sound]
Gocfl.C180_omit_case: depends on axioms: [propext, Classical.choice, Quot.sound]
Gocfl.C181_default: depends on axioms: [propext, Classical.choice, Quot.sound]
Gocfl.C181_free: depends on axioms: [propext, Classical.choice, Quot.sound]
Gocfl.C182_names_iff: depends on axioms: [propext, Classical.choice, Quot.sound]
Gocfl.C182_accepted: depends on axioms: [propext, Classical.choice, Quot.sound]
Gocfl.C183_accepted_iff: depends on axioms: [propext, Classical.choice, Quot.sound]
Gocfl.C183_valid_partial: depends on axioms: [propext, Classical.choice, Quot.sound]
Gocfl.C183_accepted_partial: depends on axioms: [propext, Classical.choice, Quot.sound]
Gocfl.C183_full_fails_sha256: depends on axioms: [propext, Classical.choice, Quot.sound]
Gocfl.C183_full_fails_content: depends on axioms: [propext, Classical.choice, Quot.sound]
Gocfl.C183_full_fails: depends on axioms: [propext, Classical.choice, Quot.sound]
Gocfl.C184_accepted_iff: depends on axioms: [propext, Classical.choice, Quot.sound]
Gocfl.C184_ignored: depends on axioms: [propext, Classical.choice, Quot.sound]
Gocfl.C185_crash_iff: depends on axioms: [propext, Classical.choice, Quot.sound]
Gocfl.C185_no_crash_partial: depends on axioms: [propext, Classical.choice, Quot.sound]
Gocfl.C185_short: depends on axioms: [propext, Classical.choice, Quot.sound]
Gocfl.C185_full_fails: depends on axioms: [propext, Classical.choice, Quot.sound]
Gocfl.C186_update_iff: depends on axioms: [propext, Classical.choice, Quot.sound]
Gocfl.C186_rejected: depends on axioms: [propext, Classical.choice, Quot.sound]
Gocfl.C186_updates_partial: depends on axioms: [propext, Classical.choice, Quot.sound]
Gocfl.C186_full_fails: depends on axioms: [propext, Classical.choice, Quot.sound]
Gocfl.C187_once_iff: depends on axioms: [propext, Classical.choice, Quot.sound]
Gocfl.C187_small_partial: depends on axioms: [propext, Classical.choice, Quot.sound]
Gocfl.C187_full_fails: depends on axioms: [propext, Classical.choice, Quot.sound]
Gocfl.C187_unseen: depends on axioms: [propext, Classical.choice, Quot.sound]
Gocfl.C188_extract_iff: depends on axioms: [propext, Classical.choice, Quot.sound]
Gocfl.C188_extract_partial: depends on axioms: [propext, Classical.choice, Quot.sound]
Gocfl.C188_full_fails: depends on axioms: [propext, Classical.choice, Quot.sound]
Gocfl.C189_noticed: depends on axioms: [propext, Classical.choice, Quot.sound]
Gocfl.C189_sidecar: depends on axioms: [propext, Classical.choice, Quot.sound]
Gocfl.C189_declaration_lost: depends on axioms: [propext, Classical.choice, Quot.sound]
Gocfl.C189_change_iff: depends on axioms: [propext, Classical.choice, Quot.sound]
Gocfl.C189_damage_partial: depends on axioms: [propext, Classical.choice, Quot.sound]
Gocfl.C189_full_fails: depends on axioms: [propext, Classical.choice, Quot.sound]
Gocfl.C189_full_fails_beside: depends on axioms: [propext, Classical.choice, Quot.sound]
Gocfl.C190_added_iff: depends on axioms: [propext, Classical.choice, Quot.sound]
Gocfl.C190_added_partial: depends on axioms: [propext, Classical.choice, Quot.sound]
Gocfl.C190_full_fails: depends on axioms: [propext, Classical.choice, Quot.sound]
Gocfl.C190_full_fails_name: depends on axioms: [propext, Classical.choice, Quot.sound]
Gocfl.C191_from_disk: depends on axioms: [propext, Classical.choice, Quot.sound]
Gocfl.C191_to_disk_iff: depends on axioms: [propext, Classical.choice, Quot.sound]
Gocfl.C191_full_fails: depends on axioms: [propext, Classical.choice, Quot.sound]
Gocfl.C192_converted_iff: depends on axioms: [propext, Quot.sound]
Gocfl.C192_same_document: depends on axioms: [propext, Quot.sound]
Gocfl.C192_yaml: depends on axioms: [propext, Quot.sound]
Gocfl.C192_toml: depends on axioms: [propext, Quot.sound]
Gocfl.C192_stored: depends on axioms: [propext, Classical.choice, Quot.sound]
Gocfl.C193_created_iff: depends on axioms: [propext, Classical.choice, Quot.sound]
Gocfl.C193_created_partial: depends on axioms: [propext, Classical.choice, Quot.sound]
Gocfl.C193_full_fails: depends on axioms: [propext, Classical.choice, Quot.sound]
Gocfl.C193_not_compared: depends on axioms: [propext, Classical.choice, Quot.sound]
Gocfl.C193_full_fails_checked: depends on axioms: [propext, Classical.choice, Quot.sound]
Gocfl.C194_reversed: depends on axioms: [propext, Classical.choice, Quot.sound]
Gocfl.C194_reversed_iff: depends on axioms: [propext, Classical.choice, Quot.sound]
Gocfl.C194_characters_iff: depends on axioms: [propext, Classical.choice, Quot.sound]
Gocfl.C194_characters_partial: depends on axioms: [propext, Classical.choice, Quot.sound]
Gocfl.C194_full_fails: depends on axioms: [propext, Classical.choice, Quot.sound]
Gocfl.C194_not_text: depends on axioms: [propext, Classical.choice, Quot.sound]
Gocfl.C195_content_path: depends on axioms: [propext, Classical.choice, Quot.sound]
Gocfl.C195_state_path: depends on axioms: [propext, Classical.choice, Quot.sound]
Gocfl.C195_same_iff: depends on axioms: [propext, Classical.choice, Quot.sound]
Gocfl.C195_inside: depends on axioms: [propext, Classical.choice, Quot.sound]
Gocfl.C195_safe_names: depends on axioms: [propext, Classical.choice, Quot.sound]
Gocfl.C195_targets: depends on axioms: [propext, Classical.choice, Quot.sound]
Gocfl.C195_paths: depends on axioms: [propext, Classical.choice, Quot.sound]
Gocfl.C195_default_partial: depends on axioms: [propext, Classical.choice, Quot.sound]
Gocfl.C195_full_fails: depends on axioms: [propext, Classical.choice, Quot.sound]
Gocfl.C195_full_fails_shipped: depends on axioms: [propext, Classical.choice, Quot.sound]
Gocfl.C196_noticed: depends on axioms: [propext, Classical.choice, Quot.sound]
Gocfl.C196_loss_iff: depends on axioms: [propext, Classical.choice, Quot.sound]
Gocfl.C196_where: depends on axioms: [propext, Classical.choice, Quot.sound]
Gocfl.C196_checked: depends on axioms: [propext, Classical.choice, Quot.sound]
Gocfl.C196_own: depends on axioms: [propext, Classical.choice, Quot.sound]
Gocfl.C197_listed: depends on axioms: [propext, Classical.choice, Quot.sound]
Gocfl.C197_validates_partial: depends on axioms: [propext, Classical.choice, Quot.sound]
Gocfl.C197_validates_iff: depends on axioms: [propext, Classical.choice, Quot.sound]
Gocfl.C197_begun: depends on axioms: [propext, Classical.choice, Quot.sound]
Gocfl.C197_interrupted: depends on axioms: [propext, Classical.choice, Quot.sound]
Gocfl.C197_full_fails: depends on axioms: [propext, Classical.choice, Quot.sound]
Gocfl.C198_loss_iff: depends on axioms: [propext, Classical.choice, Quot.sound]
Gocfl.C198_noticed_partial: depends on axioms: [propext, Classical.choice, Quot.sound]
Gocfl.C198_full_fails: depends on axioms: [propext, Classical.choice, Quot.sound]
Gocfl.C199_change_iff: depends on axioms: [propext, Classical.choice, Quot.sound]
Gocfl.C199_noticed_partial: depends on axioms: [propext, Classical.choice, Quot.sound]
Gocfl.C199_full_fails: depends on axioms: [propext, Classical.choice, Quot.sound]
Gocfl.C200_added_iff: depends on axioms: [propext, Classical.choice, Quot.sound]
Gocfl.C200_noticed_partial: depends on axioms: [propext, Classical.choice, Quot.sound]
Gocfl.C200_top_iff: depends on axioms: [propext, Classical.choice, Quot.sound]
Gocfl.C200_full_fails: depends on axioms: [propext, Classical.choice, Quot.sound]
