# Axioms the property theorems depend on

Output of `#print axioms` for every theorem named in MANIFEST.json. The axioms are those of Lean's library.

## none

C04_eq_differs, C66_literal, C111_blocks

## propext

C02_cstring_nul_lost, C02_cstring_round_trip, C03_accepts_only, C38_entry, C38_same_name_accepted, C100_check, C115_violated_order, C120_nothing, C130_report, C136_violated_pdrive, C136_violated_sign

## Quot.sound, propext

C03_parse_display, C03_parse_stable, C03_round_trip_iff, C09_addition_order, C09_deterministic, C10_history, C17_config_length, C17_part_lengths, C22_canonical, C22_idempotent, C22_sorted, C30_else_refused_iff_partial, C32_scoped_map, C38_accepted, C38_error_lints_report, C38_minimum_severity, C38_not_disabled, C38_run, C40_overlay, C44_containers_keep_order, C44_unsorted_after_sort, C45_complete_iff, C45_totals, C49_virtual, C54_violated, C70_everywhere, C76_order, C80_archive, C89_inside, C89_violated_root, C95_printed, C96_annotations, C96_empty, C98_build, C100_large, C115_check, C116_joined, C116_violated_beside, C130_fails, C132_file_game_partial, C132_short_dot, C132_violated_short, C136_release, C142_box_partial, C142_violated_behind, C142_written

## Classical.choice, Quot.sound, propext

C01_compressed_round_trip, C01_encoding_shape, C03_hash_with_dash_lost, C04_cmp_spec, C04_max_exists, C04_total_order, C05_eval, C05_leading_minus_rejected, C05_malformed_accepted, C05_spec_unambiguous, C05_tokens, C06_file, C06_prefix, C06_round_trip_fails, C07_round_trip, C07_valid_of_history, C08_case_clash_differs, C08_checksum, C08_no_properties_differs, C09_case_clash_nondeterministic, C09_sorted, C11_end_to_end, C11_sign_verify, C12_binds_partial, C12_forgery, C13_verify_iff, C14_private_key, C14_public_key, C14_signature, C14_truncation, C15_case_clash_uncovered, C15_first_digest_covers, C15_same_signature, C16_decode, C16_injective, C18_injective, C18_round_trip, C19_decompress_safe, C20_size_bound, C21_read_no_panic, C21_read_write_read, C21_round_trip, C22_same, C23_preserves, C24_abort, C24_no_abort_partial, C25_entry_wraps, C25_reads_back, C26_injective, C26_pipeline, C26_round_trip, C27_exact_partial, C27_never_over, C27_under_reports, C28_binding, C28_both_violated, C28_complete, C28_db_a3, C28_db_add, C28_print, C28_sound, C28_unambiguous, C28_unary, C28_workspace_violated, C29_conditionals, C29_unterminated, C29_violated_in_macros, C30_double_else_partial, C30_hidden, C30_stray_else, C30_stray_else_aborts, C30_stray_endif, C30_violated, C31_terminates_partial, C31_violated_include, C31_violated_mutual, C32_arma_undefined, C32_builtins_fixed, C32_is_macro, C33_lines, C33_macro_uses, C33_mapping_correct, C33_mappings_overshoot, C33_text, C33_total, C34_byte_offset, C34_extract, C34_extract_from, C35_flags_partial, C35_flags_set, C35_line_ends, C35_line_flags_stay, C35_no_leak, C35_suppress, C36_scan_accepts, C36_scan_distinct, C36_scan_fails, C37_discover, C37_discover_duplicate, C37_kelvin_panics, C37_nested_order_dependent, C37_order_independent, C37_resolves, C39_archive, C39_archive_before_post_release, C39_commands, C39_exit_code, C39_pipeline, C39_stops, C40_acyclic_ends, C40_circle_reported, C40_config, C40_ends_iff, C40_resolved, C40_violated, C41_contained_partial, C41_contents, C41_existing_untouched, C41_round_trip, C41_violated, C42_comment_violated, C42_fixes_partial, C42_only_names, C42_quoted_violated, C42_same_but_case, C42_strings_comments_partial, C42_twice_partial, C42_twice_violated, C43_short, C43_violated, C46_else_escapes, C46_shared_positions_partial, C47_trailing, C47_truncated, C48_discover_any_case_partial, C48_scan_listed_case_partial, C48_violated, C49_round_trip, C49_two_prefixes_order_dependent, C50_blank, C50_layout, C50_lex, C50_program, C50_span, C51_large, C51_source, C51_string, C51_violated, C52_complete, C52_sound, C52_unique, C53_joined_violated, C53_number_partial, C53_violated, C54_abort_partial, C55_build, C55_expected_array, C55_invalid, C55_missing_braces, C55_missing_semicolon, C55_unexpected_array, C56_file, C56_injective, C56_outcome, C56_parsed, C56_written, C57_complete, C57_once, C57_sound, C58_complete, C58_sound, C59_any_scope, C59_exact, C59_written, C60_clean, C60_exact, C61_violated, C62_highest, C62_patches, C62_violated, C63_exact, C64_complete, C64_impossible, C64_overlapping, C64_sound, C64_violated, C65_cases, C65_clean, C65_exact, C65_expression, C65_report, C65_unescaped, C65_violated, C66_parse_number, C66_reported, C66_select, C66_violated, C67_condition, C67_same_value, C67_violated, C68_same_value, C68_violated, C69_bool, C69_null_violated, C69_vehicle, C70_found, C70_reported, C70_violated, C71_ignore_violated, C71_incorrect, C71_off_violated, C71_unknown, C71_version, C72_overwritten, C72_params, C72_restored, C72_violated, C73_exact, C73_groups, C73_pair, C73_violated, C74_banned, C74_banned_violated, C74_capitals, C74_case, C75_block_content, C75_comments, C75_plain_file, C75_readable, C75_violated_apostrophe, C75_violated_end, C75_violated_line, C75_violated_string, C75_violated_unreadable, C76_lines, C76_places, C76_violated_column, C76_violated_end, C76_violated_line, C77_program, C77_reads_back, C78_files, C78_one_prefix, C78_properties, C78_read_back, C78_violated_exclude, C78_violated_prefix, C79_distinct, C79_signed, C79_violated_names, C79_violated_prefix, C80_copied_partial, C80_names, C80_violated_hemtt, C80_violated_name, C81_reported, C81_signed, C81_violated_folder, C81_violated_settings, C82_capture_meaning, C82_one_meaning, C82_substitution, C82_text, C82_violated_capture, C82_violated_comma, C82_violated_empty, C82_violated_quote, C83_either, C83_own, C83_program, C83_starts, C83_steam, C83_violated_executable, C83_violated_flatpak, C83_violated_linux, C83_violated_patching, C83_violated_zero, C83_windows, C84_file, C84_folder, C84_preset, C84_violated_dot, C85_colours, C85_round_trip, C85_total, C85_violated_large, C86_complete, C86_no_abort, C86_sound, C86_violated_formats, C87_compressed, C87_violated_sides, C88_file, C88_from_file, C88_from_settings, C88_incomplete, C88_no_commit, C88_only, C88_violated_file, C88_violated_hash, C88_violated_override, C89_apart, C89_violated_shared, C90_missing, C90_violated_folder, C90_violated_shared, C90_wanted, C91_binarized, C91_check_completes, C91_no_tool, C91_runs, C91_short, C92_lines, C92_texts, C92_violated_amp, C93_comments_kept, C93_lost_at_end, C93_lost_entity, C93_repeated_blank, C93_repeated_line, C94_command, C94_command_lint, C94_lint_exact, C94_lint_quiet, C94_twice, C95_missing, C95_named, C95_none, C95_rows, C96_after_last, C96_annotation, C96_line_column, C97_ci, C97_failed, C97_line, C97_order, C97_shown, C98_dev, C98_dev_fails, C98_kept, C99_never, C99_violated, C100_named, C100_reported, C101_aborts, C101_all, C101_name, C101_reported, C101_which, C101_written, C102_reported, C103_eof, C103_exact, C103_last_macro, C103_last_token, C103_placed, C103_silent_end, C103_silent_eof, C104_all, C104_broken_off, C104_off, C104_order, C105_fails, C105_script, C105_violated, C106_plain, C106_violated, C107_error, C107_off, C107_reported, C108_exit_reached, C108_exit_violated, C108_failed, C108_hash, C108_no_prefix, C108_round_trip, C108_verified, C109_read_back, C109_violated_heading, C110_reported, C110_same_value, C110_violated_case, C110_violated_location, C111_not_reported, C111_not_swap, C111_this_reported, C111_this_same, C111_this_undefined, C112_archives, C112_content, C112_found, C112_violated_case, C112_violated_folder, C112_violated_slash, C112_violated_stale, C112_violated_truncated, C113_configured, C113_mounted, C113_on_demand, C113_only_then, C113_violated_default, C113_violated_equals, C113_violated_none, C114_conflict_launch, C114_conflict_lints, C114_heading, C114_launch, C114_lints, C114_violated_comment, C114_violated_stringtables, C115_shown, C116_found, C116_url, C116_violated_outside, C116_violated_within, C117_position, C118_binary, C118_nested, C118_nular, C118_shown, C118_violated_end, C118_violated_file, C118_violated_first, C118_violated_line, C118_violated_operator, C119_before, C119_delivered, C119_mission, C119_violated_body, C119_violated_length, C119_violated_profile, C119_violated_unknown, C119_whole, C120_asked, C120_foreign, C120_found, C120_target, C120_violated_case, C120_violated_other, C121_asked, C121_kept, C121_launched, C121_violated_copied, C121_violated_moved, C121_violated_other, C122_tree, C122_violated_include, C122_violated_nested, C123_ends_partial, C123_last_line, C123_no_crash_partial, C123_violated_alias, C123_violated_directive, C123_violated_last_line, C123_violated_nothing, C123_violated_reset, C124_configs, C124_macros, C124_pragma, C124_pragma_all, C124_presets, C124_typo, C124_values, C124_violated_mission, C124_violated_order, C124_violated_pragma, C124_violated_preset, C125_output, C125_output_text, C125_primary, C125_secondary, C125_shown, C125_text, C125_unreadable, C125_violated_compare, C125_violated_count, C125_violated_nothing, C125_warnings, C126_contains, C126_line, C126_violated_bytes, C126_violated_end, C126_violated_line_feed, C127_archive, C127_extract, C127_key, C127_signature, C127_violated_authority, C127_violated_extension, C127_violated_private_key, C127_warnings, C128_announced, C128_local, C128_no_answer, C128_requests, C128_violated_cut, C128_violated_stopped, C128_within, C129_found, C129_meaning, C129_outcome, C129_text, C130_finishes, C130_pattern, C130_threads, C130_violated_exclude, C130_violated_threads, C130_where, C130_which, C131_config, C131_pbo, C131_script, C131_sources, C131_threads, C132_counter, C132_distinct, C132_file, C132_line, C132_name, C132_plain, C132_short, C132_stands, C132_violated_expanded, C132_violated_prefix, C133_config, C133_fresh, C133_plain, C133_pre, C133_script, C134_disk, C134_files, C134_list, C134_release, C134_version, C134_violated_include, C135_files, C135_packed, C135_same, C135_violated_properties, C136_fails, C136_passes, C137_changed, C137_verified, C138_alone, C138_annotations, C138_error, C138_fails, C138_status, C138_violated_book, C138_violated_launch, C138_violated_launch_fresh, C139_hooks, C139_moment, C139_same, C139_used, C139_violated_abort, C139_violated_script, C140_links_partial, C140_violated_space, C140_written, C141_code_partial, C141_markdown_partial, C141_violated_array
