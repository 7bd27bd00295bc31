{
 "claims": [
  {
   "property": "C01",
   "status": "proved",
   "theorems": [
    "Verif.Io.C01_compressed_round_trip",
    "Verif.Io.C01_encoding_shape"
   ],
   "note": ""
  },
  {
   "property": "C02",
   "status": "proved",
   "theorems": [
    "Verif.Io.C02_cstring_round_trip",
    "Verif.Io.C02_cstring_nul_lost"
   ],
   "note": ""
  },
  {
   "property": "C03",
   "status": "proved",
   "theorems": [
    "Verif.Ver.C03_parse_display",
    "Verif.Ver.C03_round_trip_iff",
    "Verif.Ver.C03_parse_stable",
    "Verif.Ver.C03_accepts_only",
    "Verif.Ver.C03_hash_with_dash_lost"
   ],
   "note": ""
  },
  {
   "property": "C04",
   "status": "proved",
   "theorems": [
    "Verif.Ver.C04_cmp_spec",
    "Verif.Ver.C04_total_order",
    "Verif.Ver.C04_max_exists",
    "Verif.Ver.C04_eq_differs"
   ],
   "note": ""
  },
  {
   "property": "C05",
   "status": "proved",
   "theorems": [
    "Verif.Math.C05_tokens",
    "Verif.Math.C05_eval",
    "Verif.Math.C05_spec_unambiguous",
    "Verif.Math.C05_malformed_accepted",
    "Verif.Math.C05_leading_minus_rejected"
   ],
   "note": ""
  },
  {
   "property": "C06",
   "status": "partial",
   "theorems": [
    "Verif.Prefix.C06_prefix",
    "Verif.Prefix.C06_round_trip_fails",
    "Verif.Prefix.C06_file"
   ],
   "note": "C06_prefix and C06_file are for every content. The round trip is proved to hold exactly when the text of the prefix is not empty and has no '=' (C06_prefix), and is false otherwise (C06_round_trip_fails): a prefix with '=' is accepted from a key=value line but not from its own text."
  },
  {
   "property": "C07",
   "status": "proved",
   "theorems": [
    "Verif.Pbo.C07_valid_of_history",
    "Verif.Pbo.C07_round_trip"
   ],
   "note": ""
  },
  {
   "property": "C08",
   "status": "proved",
   "theorems": [
    "Verif.Pbo.C08_checksum",
    "Verif.Pbo.C08_no_properties_differs",
    "Verif.Pbo.C08_case_clash_differs"
   ],
   "note": ""
  },
  {
   "property": "C09",
   "status": "proved",
   "theorems": [
    "Verif.Pbo.C09_sorted",
    "Verif.Pbo.C09_deterministic",
    "Verif.Pbo.C09_addition_order",
    "Verif.Pbo.C09_case_clash_nondeterministic"
   ],
   "note": ""
  },
  {
   "property": "C10",
   "status": "proved",
   "theorems": [
    "Verif.Pbo.C10_history"
   ],
   "note": ""
  },
  {
   "property": "C11",
   "status": "proved",
   "theorems": [
    "Verif.Sign.C11_sign_verify",
    "Verif.Sign.C11_end_to_end"
   ],
   "note": ""
  },
  {
   "property": "C12",
   "status": "partial",
   "theorems": [
    "Verif.Sign.C12_forgery",
    "Verif.Sign.C12_binds_partial"
   ],
   "note": "The property is violated by the code: C12_forgery constructs an accepted signature for every key and archive. C12_binds_partial is what remains true under the missing check (signature modulus and exponent equal the key's)."
  },
  {
   "property": "C13",
   "status": "proved",
   "theorems": [
    "Verif.Sign.C13_verify_iff"
   ],
   "note": ""
  },
  {
   "property": "C14",
   "status": "proved",
   "theorems": [
    "Verif.Sign.C14_public_key",
    "Verif.Sign.C14_private_key",
    "Verif.Sign.C14_signature",
    "Verif.Sign.C14_truncation"
   ],
   "note": ""
  },
  {
   "property": "C15",
   "status": "proved",
   "theorems": [
    "Verif.Sign.C15_first_digest_covers",
    "Verif.Sign.C15_same_signature",
    "Verif.Sign.C15_case_clash_uncovered"
   ],
   "note": ""
  },
  {
   "property": "C16",
   "status": "proved",
   "theorems": [
    "Verif.Rap.C16_decode",
    "Verif.Rap.C16_injective"
   ],
   "note": ""
  },
  {
   "property": "C17",
   "status": "proved",
   "theorems": [
    "Verif.Rap.C17_config_length",
    "Verif.Rap.C17_part_lengths"
   ],
   "note": ""
  },
  {
   "property": "C18",
   "status": "proved",
   "theorems": [
    "Verif.Lzo.C18_round_trip",
    "Verif.Lzo.C18_injective"
   ],
   "note": ""
  },
  {
   "property": "C19",
   "status": "proved",
   "theorems": [
    "Verif.Lzo.C19_decompress_safe"
   ],
   "note": ""
  },
  {
   "property": "C20",
   "status": "proved",
   "theorems": [
    "Verif.Lzo.C20_size_bound"
   ],
   "note": ""
  },
  {
   "property": "C21",
   "status": "proved",
   "theorems": [
    "Verif.P3d.C21_round_trip",
    "Verif.P3d.C21_read_write_read",
    "Verif.P3d.C21_read_no_panic"
   ],
   "note": ""
  },
  {
   "property": "C22",
   "status": "proved",
   "theorems": [
    "Verif.Stringtable.C22_sorted",
    "Verif.Stringtable.C22_same",
    "Verif.Stringtable.C22_idempotent",
    "Verif.Stringtable.C22_canonical"
   ],
   "note": ""
  },
  {
   "property": "C23",
   "status": "proved",
   "theorems": [
    "Verif.Sqf.C23_preserves"
   ],
   "note": ""
  },
  {
   "property": "C24",
   "status": "partial",
   "theorems": [
    "Verif.Sqf.C24_abort",
    "Verif.Sqf.C24_no_abort_partial"
   ],
   "note": "Violated: C24_abort exhibits a script on which optimising panics; C24_no_abort_partial proves absence of panics for all other scripts."
  },
  {
   "property": "C25",
   "status": "proved",
   "theorems": [
    "Verif.Sqf.C25_reads_back",
    "Verif.Sqf.C25_entry_wraps"
   ],
   "note": ""
  },
  {
   "property": "C26",
   "status": "proved",
   "theorems": [
    "Verif.Sqf.C26_round_trip",
    "Verif.Sqf.C26_injective",
    "Verif.Sqf.C26_pipeline"
   ],
   "note": ""
  },
  {
   "property": "C27",
   "status": "partial",
   "theorems": [
    "Verif.Sqf.C27_never_over",
    "Verif.Sqf.C27_under_reports",
    "Verif.Sqf.C27_exact_partial"
   ],
   "note": "Violated: C27_under_reports exhibits a script whose reported version is too low; C27_never_over and C27_exact_partial prove the parts that hold."
  },
  {
   "property": "C28",
   "status": "partial",
   "theorems": [
    "Verif.SqfParse.C28_sound",
    "Verif.SqfParse.C28_complete",
    "Verif.SqfParse.C28_unambiguous",
    "Verif.SqfParse.C28_binding",
    "Verif.SqfParse.C28_unary",
    "Verif.SqfParse.C28_print",
    "Verif.SqfParse.C28_db_a3",
    "Verif.SqfParse.C28_db_add",
    "Verif.SqfParse.C28_workspace_violated",
    "Verif.SqfParse.C28_both_violated"
   ],
   "note": "C28_sound, C28_complete, C28_unambiguous, C28_binding, C28_unary and C28_print hold for every program and every table in which each word has one meaning where it stands (Db.Plain); C28_db_a3 and C28_db_add show the built-in tables keep words with a precedence of their own out. Missing because false of the code: tables with a project command named like a word of the precedence table (C28_workspace_violated) and commands that are both operand and prefix (C28_both_violated). Lexing is not modelled; the combinators of chumsky are taken to mean what the model's header says."
  },
  {
   "property": "C29",
   "status": "proved",
   "theorems": [
    "Verif.Preproc.C29_conditionals",
    "Verif.Preproc.C29_unterminated",
    "Verif.Preproc.C29_violated_in_macros"
   ],
   "note": "For the conditionals of a file. The lines of a macro's body are not lines of a file: there conditionals have no effect (C29_violated_in_macros)."
  },
  {
   "property": "C30",
   "status": "partial",
   "theorems": [
    "Verif.Preproc.C30_else_refused_iff_partial",
    "Verif.Preproc.C30_double_else_partial",
    "Verif.Preproc.C30_violated",
    "Verif.Preproc.C30_hidden",
    "Verif.Preproc.C30_stray_else",
    "Verif.Preproc.C30_stray_else_aborts",
    "Verif.Preproc.C30_stray_endif"
   ],
   "note": "For every history of directives an #else is refused exactly when the directive right before it is an #else too (C30_else_refused_iff_partial), and for every file with two #else of one #if: refused if no conditional is between them (C30_double_else_partial); accepted, with what follows read whatever was tested, if there is one (C30_hidden, C30_violated). Missing because false of the code: the rejection in the second case, and of an #else outside any conditional (C30_stray_else, C30_stray_else_aborts)."
  },
  {
   "property": "C31",
   "status": "partial",
   "theorems": [
    "Verif.Preproc.C31_terminates_partial",
    "Verif.Preproc.C31_violated_mutual",
    "Verif.Preproc.C31_violated_include"
   ],
   "note": "Terminates whenever macros and includes are not circular and bodies hold no directives (C31_terminates_partial); does not terminate for mutually recursive object-like macros (C31_violated_mutual) nor for a file including itself (C31_violated_include). That the result is the full substitution is C82."
  },
  {
   "property": "C32",
   "status": "proved",
   "theorems": [
    "Verif.Preproc.C32_scoped_map",
    "Verif.Preproc.C32_is_macro",
    "Verif.Preproc.C32_builtins_fixed",
    "Verif.Preproc.C32_arma_undefined"
   ],
   "note": ""
  },
  {
   "property": "C33",
   "status": "proved",
   "theorems": [
    "Verif.Processed.C33_mapping_correct",
    "Verif.Processed.C33_text",
    "Verif.Processed.C33_macro_uses",
    "Verif.Processed.C33_lines",
    "Verif.Processed.C33_total",
    "Verif.Processed.C33_mappings_overshoot"
   ],
   "note": ""
  },
  {
   "property": "C34",
   "status": "proved",
   "theorems": [
    "Verif.Processed.C34_extract",
    "Verif.Processed.C34_extract_from",
    "Verif.Processed.C34_byte_offset"
   ],
   "note": ""
  },
  {
   "property": "C35",
   "status": "partial",
   "theorems": [
    "Verif.Preproc.C35_suppress",
    "Verif.Preproc.C35_flags_partial",
    "Verif.Preproc.C35_flags_set",
    "Verif.Preproc.C35_line_flags_stay",
    "Verif.Preproc.C35_no_leak",
    "Verif.Preproc.C35_line_ends"
   ],
   "note": "Suppressions end with their scope (C35_suppress, C35_line_ends, C35_no_leak); violated for line-scoped flags, which are never cleared (C35_line_flags_stay)."
  },
  {
   "property": "C36",
   "status": "proved",
   "theorems": [
    "Verif.Workspace.C36_scan_distinct",
    "Verif.Workspace.C36_scan_fails",
    "Verif.Workspace.C36_scan_accepts"
   ],
   "note": ""
  },
  {
   "property": "C37",
   "status": "proved",
   "theorems": [
    "Verif.Workspace.C37_order_independent",
    "Verif.Workspace.C37_resolves",
    "Verif.Workspace.C37_nested_order_dependent",
    "Verif.Workspace.C37_kelvin_panics",
    "Verif.Workspace.C37_discover",
    "Verif.Workspace.C37_discover_duplicate"
   ],
   "note": ""
  },
  {
   "property": "C38",
   "status": "proved",
   "theorems": [
    "Verif.Lints.C38_minimum_severity",
    "Verif.Lints.C38_not_disabled",
    "Verif.Lints.C38_accepted",
    "Verif.Lints.C38_run",
    "Verif.Lints.C38_error_lints_report",
    "Verif.Lints.C38_same_name_accepted",
    "Verif.Lints.C38_entry"
   ],
   "note": ""
  },
  {
   "property": "C39",
   "status": "proved",
   "theorems": [
    "Verif.Executor.C39_pipeline",
    "Verif.Executor.C39_stops",
    "Verif.Executor.C39_archive",
    "Verif.Executor.C39_exit_code",
    "Verif.Executor.C39_commands",
    "Verif.Executor.C39_archive_before_post_release"
   ],
   "note": ""
  },
  {
   "property": "C40",
   "status": "partial",
   "theorems": [
    "Verif.Launch.C40_resolved",
    "Verif.Launch.C40_ends_iff",
    "Verif.Launch.C40_acyclic_ends",
    "Verif.Launch.C40_config",
    "Verif.Launch.C40_violated",
    "Verif.Launch.C40_circle_reported",
    "Verif.Launch.C40_overlay"
   ],
   "note": "Termination is false of the code for cycles not containing the starting configuration (C40_violated); proved: resolving ends exactly when following extends ends (C40_ends_iff), acyclic configurations always resolve (C40_acyclic_ends, C40_config) and the result is the merge of the chain (C40_resolved). A cycle reached from a member of itself is reported (C40_circle_reported)."
  },
  {
   "property": "C41",
   "status": "partial",
   "theorems": [
    "Verif.Unpack.C41_contained_partial",
    "Verif.Unpack.C41_existing_untouched",
    "Verif.Unpack.C41_contents",
    "Verif.Unpack.C41_round_trip",
    "Verif.Unpack.C41_violated"
   ],
   "note": "The containment claim is false of the code for names with '..' and for names that begin with a separator (C41_violated); proved for every other archive (C41_contained_partial). Contents and round trip are proved (C41_contents, C41_round_trip)."
  },
  {
   "property": "C42",
   "status": "partial",
   "theorems": [
    "Verif.CaseFix.C42_only_names",
    "Verif.CaseFix.C42_same_but_case",
    "Verif.CaseFix.C42_twice_partial",
    "Verif.CaseFix.C42_strings_comments_partial",
    "Verif.CaseFix.C42_fixes_partial",
    "Verif.CaseFix.C42_twice_violated",
    "Verif.CaseFix.C42_comment_violated",
    "Verif.CaseFix.C42_quoted_violated"
   ],
   "note": "That only names from the command table replace words, and that nothing but letter case changes, is proved for every text. Twice-is-once, strings and comments, and completeness are proved for texts on which the tool and the language agree; outside them the property is false of the code, with witnesses: HINT(PLAYER) changes again on a second run, /*/ HINT */ is changed inside a comment, words in single-quoted strings are changed."
  },
  {
   "property": "C43",
   "status": "partial",
   "theorems": [
    "Verif.Lzo.C43_violated",
    "Verif.Lzo.C43_short"
   ],
   "note": "The property is violated by the code for every input: C43_violated shows that every buffer that does not hold the result is written past its end and that no error is ever returned. C43_short says what short inputs need. C20_size_bound shows the documented worst-case size is enough."
  },
  {
   "property": "C44",
   "status": "partial",
   "theorems": [
    "Verif.Stringtable.C44_containers_keep_order",
    "Verif.Stringtable.C44_unsorted_after_sort"
   ],
   "note": "The property is violated by the code: C44_containers_keep_order shows that containers keep their order for every package, and C44_unsorted_after_sort that an unsorted container list stays unsorted."
  },
  {
   "property": "C45",
   "status": "proved",
   "theorems": [
    "Verif.Stringtable.C45_totals",
    "Verif.Stringtable.C45_complete_iff"
   ],
   "note": ""
  },
  {
   "property": "C46",
   "status": "partial",
   "theorems": [
    "Verif.Sqf.C46_shared_positions_partial",
    "Verif.Sqf.C46_else_escapes"
   ],
   "note": "Violated by an array selected through else: C46_else_escapes; C46_shared_positions_partial proves it for all scripts without an else pair of arrays."
  },
  {
   "property": "C47",
   "status": "proved",
   "theorems": [
    "Verif.Lzo.C47_trailing",
    "Verif.Lzo.C47_truncated"
   ],
   "note": ""
  },
  {
   "property": "C48",
   "status": "partial",
   "theorems": [
    "Verif.Workspace.C48_discover_any_case_partial",
    "Verif.Workspace.C48_violated",
    "Verif.Workspace.C48_scan_listed_case_partial"
   ],
   "note": "Violated by the code: C48_violated. Proved: discovery takes any letter case; the scan takes the spellings it lists."
  },
  {
   "property": "C49",
   "status": "proved",
   "theorems": [
    "Verif.Workspace.C49_virtual",
    "Verif.Workspace.C49_round_trip",
    "Verif.Workspace.C49_two_prefixes_order_dependent"
   ],
   "note": ""
  },
  {
   "property": "C50",
   "status": "proved",
   "theorems": [
    "Verif.SqfLex.C50_lex",
    "Verif.SqfLex.C50_span",
    "Verif.SqfLex.C50_blank",
    "Verif.SqfLex.C50_program",
    "Verif.SqfLex.C50_layout"
   ],
   "note": ""
  },
  {
   "property": "C51",
   "status": "partial",
   "theorems": [
    "Verif.SqfLex.C51_source",
    "Verif.SqfLex.C51_string",
    "Verif.SqfLex.C51_large",
    "Verif.SqfLex.C51_violated"
   ],
   "note": "the printed text is read back if strings do not contain their own quote (iff), numbers are printed in a readable form and the text kept of code is that code (C51_source, C51_string); violated otherwise (C51_large, C51_violated)"
  },
  {
   "property": "C52",
   "status": "proved",
   "theorems": [
    "Verif.ConfigParse.C52_sound",
    "Verif.ConfigParse.C52_complete",
    "Verif.ConfigParse.C52_unique"
   ],
   "note": "Soundness, completeness and uniqueness. Texts in which the parser recovers from an error are outside: the model stops there. For completeness, numbers followed by a blank must not change when printed and evaluated, see C53."
  },
  {
   "property": "C53",
   "status": "partial",
   "theorems": [
    "Verif.ConfigParse.C53_number_partial",
    "Verif.ConfigParse.C53_violated",
    "Verif.ConfigParse.C53_joined_violated"
   ],
   "note": "Violated by the code: C53_violated (a blank behind 1.0 turns the float into an integer) and C53_joined_violated (1.0.0 is read as the integer 10). C53_number_partial shows that a literal followed by nothing or by white space that does not begin with a blank is kept."
  },
  {
   "property": "C54",
   "status": "partial",
   "theorems": [
    "Verif.ConfigParse.C54_violated",
    "Verif.ConfigParse.C54_abort_partial"
   ],
   "note": "Violated by the code: C54_violated (__EVAL without brackets panics). C54_abort_partial shows this is the only way: if each __EVAL is followed by a bracket the parser does not abort. What the parser does after an error it recovers from is not modelled."
  },
  {
   "property": "C55",
   "status": "proved",
   "theorems": [
    "Verif.ConfigLint.C55_unexpected_array",
    "Verif.ConfigLint.C55_expected_array",
    "Verif.ConfigLint.C55_missing_semicolon",
    "Verif.ConfigLint.C55_missing_braces",
    "Verif.ConfigLint.C55_invalid",
    "Verif.ConfigLint.C55_build"
   ],
   "note": ""
  },
  {
   "property": "C56",
   "status": "proved",
   "theorems": [
    "Verif.ConfigLint.C56_parsed",
    "Verif.ConfigLint.C56_outcome",
    "Verif.ConfigLint.C56_file",
    "Verif.ConfigLint.C56_written",
    "Verif.ConfigLint.C56_injective"
   ],
   "note": ""
  },
  {
   "property": "C57",
   "status": "partial",
   "theorems": [
    "Verif.ConfigLint.C57_sound",
    "Verif.ConfigLint.C57_complete",
    "Verif.ConfigLint.C57_once"
   ],
   "note": "Exact for all that counts as a definition in the code (C57_sound, C57_complete, C57_once). A class that is only declared does not count, against the documentation (example beside the theorems)."
  },
  {
   "property": "C58",
   "status": "proved",
   "theorems": [
    "Verif.ConfigLint.C58_sound",
    "Verif.ConfigLint.C58_complete"
   ],
   "note": ""
  },
  {
   "property": "C59",
   "status": "proved",
   "theorems": [
    "Verif.ConfigLint.C59_exact",
    "Verif.ConfigLint.C59_written",
    "Verif.ConfigLint.C59_any_scope"
   ],
   "note": ""
  },
  {
   "property": "C60",
   "status": "proved",
   "theorems": [
    "Verif.ConfigLint.C60_exact",
    "Verif.ConfigLint.C60_clean"
   ],
   "note": ""
  },
  {
   "property": "C61",
   "status": "partial",
   "theorems": [
    "Verif.ConfigLint.C61_violated"
   ],
   "note": "Violated: C61_violated proves that the build is refused whatever severity is configured."
  },
  {
   "property": "C62",
   "status": "partial",
   "theorems": [
    "Verif.ConfigLint.C62_patches",
    "Verif.ConfigLint.C62_highest",
    "Verif.ConfigLint.C62_violated"
   ],
   "note": "Proved for decimal numbers (C62_patches, C62_highest); violated for whole numbers (C62_violated)."
  },
  {
   "property": "C63",
   "status": "proved",
   "theorems": [
    "Verif.ConfigLint.C63_exact"
   ],
   "note": ""
  },
  {
   "property": "C64",
   "status": "proved",
   "theorems": [
    "Verif.SqfLint.C64_sound",
    "Verif.SqfLint.C64_complete",
    "Verif.SqfLint.C64_impossible",
    "Verif.SqfLint.C64_overlapping",
    "Verif.SqfLint.C64_violated"
   ],
   "note": "Every sentence of the statement is proved, the conditions and exceptions in it included. Reports are exactly characterised. That they are true of the condition is proved for comparisons with the variable first and refuted for the number first (C64_violated)."
  },
  {
   "property": "C65",
   "status": "proved",
   "theorems": [
    "Verif.SqfLint.C65_cases",
    "Verif.SqfLint.C65_unescaped",
    "Verif.SqfLint.C65_exact",
    "Verif.SqfLint.C65_clean",
    "Verif.SqfLint.C65_report",
    "Verif.SqfLint.C65_expression",
    "Verif.SqfLint.C65_violated"
   ],
   "note": "Every sentence of the statement is proved, the conditions and exceptions in it included. Exact characterisation of what is reported. 'Every unused argument is reported' is refuted (C65_violated), as is the treatment of numbers of more than 64 bits."
  },
  {
   "property": "C66",
   "status": "proved",
   "theorems": [
    "Verif.SqfLint.C66_reported",
    "Verif.SqfLint.C66_select",
    "Verif.SqfLint.C66_literal",
    "Verif.SqfLint.C66_parse_number",
    "Verif.SqfLint.C66_violated"
   ],
   "note": "Every sentence of the statement is proved, the conditions and exceptions in it included. Proved for select; for parseNumber only conditions that are not binary commands, the rest is false (C66_violated); laws of the game (if, select, parseNumber, constants) are hypotheses, met by the toy game of Lib/SqfToy"
  },
  {
   "property": "C67",
   "status": "proved",
   "theorems": [
    "Verif.SqfLint.C67_condition",
    "Verif.SqfLint.C67_same_value",
    "Verif.SqfLint.C67_violated"
   ],
   "note": "Every sentence of the statement is proved, the conditions and exceptions in it included. Proved for the numbers 0 and 1; false for numbers that are close to them (C67_violated)"
  },
  {
   "property": "C68",
   "status": "proved",
   "theorems": [
    "Verif.SqfLint.C68_same_value",
    "Verif.SqfLint.C68_violated"
   ],
   "note": "Every sentence of the statement is proved, the conditions and exceptions in it included. Proved for texts without double quotes; false otherwise (C68_violated)"
  },
  {
   "property": "C69",
   "status": "proved",
   "theorems": [
    "Verif.SqfLint.C69_bool",
    "Verif.SqfLint.C69_vehicle",
    "Verif.SqfLint.C69_null_violated"
   ],
   "note": "Every sentence of the statement is proved, the conditions and exceptions in it included. Proved for truth values and existing objects; C69_null_violated shows that existence is needed"
  },
  {
   "property": "C70",
   "status": "proved",
   "theorems": [
    "Verif.SqfLint.C70_everywhere",
    "Verif.SqfLint.C70_reported",
    "Verif.SqfLint.C70_found",
    "Verif.SqfLint.C70_violated"
   ],
   "note": "Every sentence of the statement is proved, the conditions and exceptions in it included. Found only in statements of commands and code; false with variables, literals or arrays (C70_violated)"
  },
  {
   "property": "C71",
   "status": "proved",
   "theorems": [
    "Verif.SqfLint.C71_unknown",
    "Verif.SqfLint.C71_incorrect",
    "Verif.SqfLint.C71_version",
    "Verif.SqfLint.C71_off_violated",
    "Verif.SqfLint.C71_ignore_violated"
   ],
   "note": "Every sentence of the statement is proved, the conditions and exceptions in it included. What is reported is exact; turning the lint off and ignoring events do not work (C71_off_violated, C71_ignore_violated)"
  },
  {
   "property": "C72",
   "status": "proved",
   "theorems": [
    "Verif.SqfLint.C72_restored",
    "Verif.SqfLint.C72_overwritten",
    "Verif.SqfLint.C72_params",
    "Verif.SqfLint.C72_violated"
   ],
   "note": "Every sentence of the statement is proved, the conditions and exceptions in it included. Restored values only for blocks that use the saving variables for nothing else; false otherwise (C72_violated)"
  },
  {
   "property": "C73",
   "status": "proved",
   "theorems": [
    "Verif.SqfLint.C73_groups",
    "Verif.SqfLint.C73_exact",
    "Verif.SqfLint.C73_pair",
    "Verif.SqfLint.C73_violated"
   ],
   "note": "Every sentence of the statement is proved, the conditions and exceptions in it included. Exact for the spelling of commands in the wiki; other letter case and variable/text confusion are C73_violated"
  },
  {
   "property": "C74",
   "status": "proved",
   "theorems": [
    "Verif.SqfLint.C74_capitals",
    "Verif.SqfLint.C74_case",
    "Verif.SqfLint.C74_banned",
    "Verif.SqfLint.C74_banned_violated"
   ],
   "note": "Every sentence of the statement is proved, the conditions and exceptions in it included. Exact; a banned command unknown to the wiki is not reported (C74_banned_violated)"
  },
  {
   "property": "C75",
   "status": "proved",
   "theorems": [
    "Verif.Preproc.C75_comments",
    "Verif.Preproc.C75_readable",
    "Verif.Preproc.C75_block_content",
    "Verif.Preproc.C75_plain_file",
    "Verif.Preproc.C75_violated_line",
    "Verif.Preproc.C75_violated_string",
    "Verif.Preproc.C75_violated_unreadable",
    "Verif.Preproc.C75_violated_end",
    "Verif.Preproc.C75_violated_apostrophe"
   ],
   "note": "Every sentence of the statement is proved, the conditions and exceptions in it included. Proved for sources in which no /* … */ begins in a string or in a // comment; C75_violated_* show that this is needed, and where comments have an influence"
  },
  {
   "property": "C76",
   "status": "proved",
   "theorems": [
    "Verif.Preproc.C76_places",
    "Verif.Preproc.C76_order",
    "Verif.Preproc.C76_lines",
    "Verif.Preproc.C76_violated_line",
    "Verif.Preproc.C76_violated_end",
    "Verif.Preproc.C76_violated_column"
   ],
   "note": "Every sentence of the statement is proved, the conditions and exceptions in it included. Offsets and order proved; lines under the same condition as C75; C76_violated_* for lines, columns and the end of // in strings"
  },
  {
   "property": "C77",
   "status": "proved",
   "theorems": [
    "Verif.Preproc.C77_reads_back",
    "Verif.Preproc.C77_program"
   ],
   "note": ""
  },
  {
   "property": "C78",
   "status": "proved",
   "theorems": [
    "Verif.Release.C78_files",
    "Verif.Release.C78_properties",
    "Verif.Release.C78_read_back",
    "Verif.Release.C78_one_prefix",
    "Verif.Release.C78_violated_exclude",
    "Verif.Release.C78_violated_prefix"
   ],
   "note": "Every sentence of the statement is proved, the conditions and exceptions in it included. Proved in full for the paths the program matches patterns against (C78_files, C78_properties, C78_read_back, C78_one_prefix); that patterns are written without a leading slash as documented, and that the addon's own prefix file counts, is refuted (C78_violated_exclude, C78_violated_prefix)."
  },
  {
   "property": "C79",
   "status": "proved",
   "theorems": [
    "Verif.Release.C79_distinct",
    "Verif.Release.C79_signed",
    "Verif.Release.C79_violated_prefix",
    "Verif.Release.C79_violated_names"
   ],
   "note": "Every sentence of the statement is proved, the conditions and exceptions in it included. Proved for prefixes and names without a dot (C79_distinct, C79_signed); with dots refuted (C79_violated_prefix, C79_violated_names)."
  },
  {
   "property": "C80",
   "status": "partial",
   "theorems": [
    "Verif.Release.C80_copied_partial",
    "Verif.Release.C80_violated_hemtt",
    "Verif.Release.C80_archive",
    "Verif.Release.C80_names",
    "Verif.Release.C80_violated_name"
   ],
   "note": "Proved unless a name at the root begins with .hemtt (C80_copied_partial), the archive in full for names without separators and a prefix without a dot (C80_archive, C80_names); otherwise refuted (C80_violated_hemtt, C80_violated_name)."
  },
  {
   "property": "C81",
   "status": "proved",
   "theorems": [
    "Verif.Release.C81_reported",
    "Verif.Release.C81_signed",
    "Verif.Release.C81_violated_settings",
    "Verif.Release.C81_violated_folder"
   ],
   "note": "Every sentence of the statement is proved, the conditions and exceptions in it included. C81_signed is the full statement that no empty addon is released. That the check reports only empty addons holds if the folder itself holds only files (C81_reported) and is refuted otherwise (C81_violated_folder); that it reports all is refuted (C81_violated_settings)."
  },
  {
   "property": "C82",
   "status": "proved",
   "theorems": [
    "Verif.Preproc.C82_substitution",
    "Verif.Preproc.C82_text",
    "Verif.Preproc.C82_one_meaning",
    "Verif.Preproc.C82_capture_meaning",
    "Verif.Preproc.C82_violated_capture",
    "Verif.Preproc.C82_violated_quote",
    "Verif.Preproc.C82_violated_comma",
    "Verif.Preproc.C82_violated_empty"
   ],
   "note": "C82_substitution for token lists with growing positions, C82_text for the text of the file (positions by the tokenizer), C82_one_meaning: substitution is a function. The relation Holds/Means (Spec/PreprocSubst) knows no positions, stack or fuel. Not covered: includes, generated macros (__LINE__, __COUNTER__, ...), lines that end in a backslash. C82_violated_* show the differences to substitution outside of the conditions."
  },
  {
   "property": "C83",
   "status": "partial",
   "theorems": [
    "Verif.Launcher.C83_either",
    "Verif.Launcher.C83_windows",
    "Verif.Launcher.C83_starts",
    "Verif.Launcher.C83_program",
    "Verif.Launcher.C83_own",
    "Verif.Launcher.C83_violated_executable",
    "Verif.Launcher.C83_violated_patching",
    "Verif.Launcher.C83_violated_linux",
    "Verif.Launcher.C83_steam",
    "Verif.Launcher.C83_violated_flatpak",
    "Verif.Launcher.C83_violated_zero"
   ],
   "note": "Proved for Windows: C83_either, C83_windows (what is started), C83_starts (it is started if everything is there), C83_program, C83_own. The claim fails elsewhere: --executable is ignored (C83_violated_executable), outside of Windows -filePatching is missing for one game (C83_violated_patching) and flatpak has to be installed (C83_violated_flatpak), on Linux nothing is started because the project's own path is looked up in the workshop folder (C83_violated_linux), and --instances 0 aborts (C83_violated_zero)."
  },
  {
   "property": "C84",
   "status": "proved",
   "theorems": [
    "Verif.Launcher.C84_preset",
    "Verif.Launcher.C84_folder",
    "Verif.Launcher.C84_file",
    "Verif.Launcher.C84_violated_dot"
   ],
   "note": "Every sentence of the statement is proved, the conditions and exceptions in it included. C84_preset (mods, order, DLCs) for all texts; C84_file for names without dots and separators. With a dot the name loses what is behind it (C84_violated_dot)."
  },
  {
   "property": "C85",
   "status": "proved",
   "theorems": [
    "Verif.Paa.C85_total",
    "Verif.Paa.C85_colours",
    "Verif.Paa.C85_round_trip",
    "Verif.Paa.C85_violated_large"
   ],
   "note": "The exception for large images is part of the statement and proved (C85_violated_large). The codec is not modelled."
  },
  {
   "property": "C86",
   "status": "proved",
   "theorems": [
    "Verif.Paa.C86_sound",
    "Verif.Paa.C86_complete",
    "Verif.Paa.C86_no_abort",
    "Verif.Paa.C86_violated_formats"
   ],
   "note": "The exception for the other formats is part of the statement and proved (C86_violated_formats)."
  },
  {
   "property": "C87",
   "status": "proved",
   "theorems": [
    "Verif.Paa.C87_compressed",
    "Verif.Paa.C87_violated_sides"
   ],
   "note": "The exception for sides not divisible by four is part of the statement and proved (C87_violated_sides). The codec is not modelled."
  },
  {
   "property": "C88",
   "status": "proved",
   "theorems": [
    "Verif.Project.C88_file",
    "Verif.Project.C88_only",
    "Verif.Project.C88_from_file",
    "Verif.Project.C88_from_settings",
    "Verif.Project.C88_incomplete",
    "Verif.Project.C88_no_commit",
    "Verif.Project.C88_violated_override",
    "Verif.Project.C88_violated_hash",
    "Verif.Project.C88_violated_file"
   ],
   "note": "Every sentence of the statement is proved, the exceptions included (C88_violated_override, C88_violated_hash, C88_violated_file)."
  },
  {
   "property": "C89",
   "status": "proved",
   "theorems": [
    "Verif.Project.C89_apart",
    "Verif.Project.C89_inside",
    "Verif.Project.C89_violated_root",
    "Verif.Project.C89_violated_shared"
   ],
   "note": "Every sentence of the statement is proved, the exceptions included (C89_violated_root, C89_violated_shared)."
  },
  {
   "property": "C90",
   "status": "proved",
   "theorems": [
    "Verif.Binarize.C90_missing",
    "Verif.Binarize.C90_wanted",
    "Verif.Binarize.C90_violated_shared",
    "Verif.Binarize.C90_violated_folder"
   ],
   "note": "Report of a check by induction on addons, entries and names; the shared cache is kept sound as an invariant. Both provisos are shown to be needed (C90_violated_shared, C90_violated_folder). Looking up a file is a parameter."
  },
  {
   "property": "C91",
   "status": "proved",
   "theorems": [
    "Verif.Binarize.C91_check_completes",
    "Verif.Binarize.C91_runs",
    "Verif.Binarize.C91_binarized",
    "Verif.Binarize.C91_no_tool",
    "Verif.Binarize.C91_short"
   ],
   "note": "Binarized files, arguments of the tool and what the layers of the build show afterwards. The tool is a parameter: any function of its arguments. Short files stop the check (C91_short)."
  },
  {
   "property": "C92",
   "status": "partial",
   "theorems": [
    "Verif.StringtableXml.C92_texts",
    "Verif.StringtableXml.C92_lines",
    "Verif.StringtableXml.C92_violated_amp"
   ],
   "note": "Proved for texts, on one line (C92_texts) and over several lines where the comments of the file stand before elements (C92_lines; a comment with a blank line after it can be written into a text of several lines, shown by an example). Violated by the code for identifiers and names with an entity: they are written back with a bare & (C92_violated_amp)."
  },
  {
   "property": "C93",
   "status": "proved",
   "theorems": [
    "Verif.StringtableXml.C93_comments_kept",
    "Verif.StringtableXml.C93_lost_at_end",
    "Verif.StringtableXml.C93_repeated_blank",
    "Verif.StringtableXml.C93_lost_entity",
    "Verif.StringtableXml.C93_repeated_line"
   ],
   "note": "The XML reader is a parameter: the theorem takes as hypothesis that it reads the file as the document its lines say. The bracketed exceptions are C93_lost_at_end (for all files), C93_repeated_blank, C93_repeated_line and C93_lost_entity (concrete)."
  },
  {
   "property": "C94",
   "status": "proved",
   "theorems": [
    "Verif.StringtableXml.C94_twice",
    "Verif.StringtableXml.C94_lint_exact",
    "Verif.StringtableXml.C94_lint_quiet",
    "Verif.StringtableXml.C94_command",
    "Verif.StringtableXml.C94_command_lint"
   ],
   "note": "The XML reader is a parameter; C94_twice takes as hypothesis that it reads the written file as the sorted document, and no line of the file ends in a carriage return before its line end."
  },
  {
   "property": "C95",
   "status": "proved",
   "theorems": [
    "Verif.Coverage.C95_printed",
    "Verif.Coverage.C95_rows",
    "Verif.Coverage.C95_missing",
    "Verif.Coverage.C95_named",
    "Verif.Coverage.C95_none"
   ],
   "note": "Reading a stringtable is a parameter. The percentage is given by the two numbers it is computed from (f64 division and printing are not modelled). C95_none assumes that no folder begins with N (folders begin with addons or optionals)."
  },
  {
   "property": "C96",
   "status": "proved",
   "theorems": [
    "Verif.Reporting.C96_line_column",
    "Verif.Reporting.C96_after_last",
    "Verif.Reporting.C96_empty",
    "Verif.Reporting.C96_annotation",
    "Verif.Reporting.C96_annotations"
   ],
   "note": "line_number, column_number and column_index of the library codespan_reporting are modelled from its documentation. C96_line_column is the main theorem; C96_after_last and C96_empty are the bracketed exceptions."
  },
  {
   "property": "C97",
   "status": "proved",
   "theorems": [
    "Verif.Reporting.C97_shown",
    "Verif.Reporting.C97_order",
    "Verif.Reporting.C97_failed",
    "Verif.Reporting.C97_ci",
    "C97_line"
   ],
   "note": "Drawing a report (codespan_reporting) is not modelled."
  },
  {
   "property": "C98",
   "status": "proved",
   "theorems": [
    "Verif.Commands.C98_dev",
    "Verif.Commands.C98_dev_fails",
    "Verif.Commands.C98_build",
    "Verif.Commands.C98_kept"
   ],
   "note": "Names of addons are taken to hold no slash (they are names of folders). Arguments that exclude each other are not modelled."
  },
  {
   "property": "C99",
   "status": "partial",
   "theorems": [
    "Verif.Commands.C99_never",
    "Verif.Commands.C99_violated"
   ],
   "note": "Violated by the code. C99_never: for all commands and whatever the modules do, a run is the same as one in which scripts are checked as if no addon had a required version. C99_violated: so adding the reports of the lint (model of C70) to those of the module makes no difference. That only the rapifier sets required versions is read off the code and is in the types of the model."
  },
  {
   "property": "C100",
   "status": "proved",
   "theorems": [
    "Verif.Commands.C100_check",
    "Verif.Commands.C100_reported",
    "Verif.Commands.C100_named",
    "Verif.Commands.C100_large"
   ],
   "note": "C100_reported and C100_named assume numbers below 256; C100_large and C100_check are the bracketed exceptions. That a build gets to its end is C39."
  },
  {
   "property": "C101",
   "status": "proved",
   "theorems": [
    "Verif.Commands.C101_which",
    "Verif.Commands.C101_name",
    "Verif.Commands.C101_written",
    "Verif.Commands.C101_reported",
    "Verif.Commands.C101_aborts",
    "Verif.Commands.C101_all"
   ],
   "note": "Preprocessor, parser, lints and compiler are parameters. C101_all assumes that reports of the preprocessor that end it are errors, and that there is an error among those of the parser. Scripts are compiled in parallel; the model goes through them in order."
  },
  {
   "property": "C102",
   "status": "proved",
   "theorems": [
    "Verif.Commands.C102_reported"
   ],
   "note": "File names that are not text are left out."
  },
  {
   "property": "C103",
   "status": "proved",
   "theorems": [
    "Verif.Labels.C103_placed",
    "Verif.Labels.C103_exact",
    "Verif.Labels.C103_eof",
    "Verif.Labels.C103_silent_end",
    "Verif.Labels.C103_silent_eof",
    "Verif.Labels.C103_last_token",
    "C103_last_macro"
   ],
   "note": "The exceptions in brackets are proved as well: C103_silent_eof, C103_silent_end, C103_last_token, C103_last_macro."
  },
  {
   "property": "C104",
   "status": "proved",
   "theorems": [
    "Verif.Hooks.C104_order",
    "Verif.Hooks.C104_all",
    "Verif.Hooks.C104_off",
    "Verif.Hooks.C104_broken_off"
   ],
   "note": "Hooks are arbitrary programs over an arbitrary state; their effects on the folder itself are covered by C104_order."
  },
  {
   "property": "C105",
   "status": "partial",
   "theorems": [
    "Verif.Hooks.C105_fails",
    "Verif.Hooks.C105_violated",
    "Verif.Hooks.C105_script"
   ],
   "note": "Violated by the code for scripts that hooks run with HEMTT.script: C105_violated. Proved for what hooks do themselves (C105_fails) and for hemtt script (C105_script)."
  },
  {
   "property": "C106",
   "status": "partial",
   "theorems": [
    "Verif.Hooks.C106_plain",
    "Verif.Hooks.C106_violated"
   ],
   "note": "Proved for names without a dot in the last part. Violated by the code for the others: C106_violated."
  },
  {
   "property": "C107",
   "status": "proved",
   "theorems": [
    "Verif.Hooks.C107_reported",
    "Verif.Hooks.C107_error",
    "Verif.Hooks.C107_off"
   ],
   "note": "The script engine's parser is a parameter."
  },
  {
   "property": "C108",
   "status": "partial",
   "theorems": [
    "Verif.Utils.C108_verified",
    "Verif.Utils.C108_failed",
    "Verif.Utils.C108_exit_violated",
    "Verif.Utils.C108_no_prefix",
    "Verif.Utils.C108_hash",
    "Verif.Utils.C108_round_trip",
    "Verif.Utils.C108_exit_reached"
   ],
   "note": "Everything but the exit code is proved. The exit code is violated by the code: C108_exit_violated, reached by C108_exit_reached."
  },
  {
   "property": "C109",
   "status": "proved",
   "theorems": [
    "Verif.Utils.C109_read_back",
    "Verif.Utils.C109_violated_heading"
   ],
   "note": "Model: of TOML, basic strings (all escapes) in four lines of fixed order. C109_read_back is the equivalence; C109_violated_heading says what happens to [hemtt.launch]."
  },
  {
   "property": "C110",
   "status": "partial",
   "theorems": [
    "Verif.SqfLint.C110_reported",
    "Verif.SqfLint.C110_same_value",
    "Verif.SqfLint.C110_violated_location",
    "Verif.SqfLint.C110_violated_case"
   ],
   "note": "Violated by the code: text of a location is its name, a string, but \"TEXT\" is suggested (C110_violated_location); constants are found only if written in small letters, so typeName objNull is not reported (C110_violated_case). Proved: what is reported (C110_reported) and that the suggestion has the same value, with text only of strings (C110_same_value)."
  },
  {
   "property": "C111",
   "status": "proved",
   "theorems": [
    "Verif.SqfLint.C111_not_reported",
    "Verif.SqfLint.C111_not_swap",
    "Verif.SqfLint.C111_blocks",
    "Verif.SqfLint.C111_this_reported",
    "Verif.SqfLint.C111_this_same",
    "Verif.SqfLint.C111_this_undefined"
   ],
   "note": "C111_not_reported, C111_this_reported: what is reported. C111_not_swap, C111_this_same: the rewriting. C111_blocks: blocks meet the hypothesis of C111_not_swap. C111_this_undefined: that _this has a value is needed."
  },
  {
   "property": "C112",
   "status": "partial",
   "theorems": [
    "Verif.Pdrive.C112_content",
    "Verif.Pdrive.C112_found",
    "Verif.Pdrive.C112_violated_truncated",
    "Verif.Pdrive.C112_violated_stale",
    "Verif.Pdrive.C112_violated_slash",
    "Verif.Pdrive.C112_violated_case",
    "Verif.Pdrive.C112_archives",
    "Verif.Pdrive.C112_violated_folder"
   ],
   "note": "Violated by the code: a file that could not be written completely is used afterwards (C112_violated_truncated), and one taken out before an update of the game (C112_violated_stale); a path with a slash at its end aborts (C112_violated_slash), as does a folder of the game that is missing (C112_violated_folder); the addon must be written as its archive is (C112_violated_case). Proved for all sequences of requests without a failed write: C112_content, C112_found; C112_archives."
  },
  {
   "property": "C113",
   "status": "partial",
   "theorems": [
    "Verif.Pdrive.C113_mounted",
    "Verif.Pdrive.C113_configured",
    "Verif.Pdrive.C113_on_demand",
    "Verif.Pdrive.C113_only_then",
    "Verif.Pdrive.C113_violated_default",
    "Verif.Pdrive.C113_violated_none",
    "Verif.Pdrive.C113_violated_equals"
   ],
   "note": "Violated by the code: the usual place is preferred to the one set (C113_violated_default); without a documents folder, or with tools whose settings cannot be read, there is no P drive though the game is installed (C113_violated_none); a folder with = in its name is cut (C113_violated_equals). Proved: C113_mounted, C113_configured (nothing at the usual place), C113_on_demand, C113_only_then."
  },
  {
   "property": "C114",
   "status": "partial",
   "theorems": [
    "Verif.ProjectFile.C114_heading",
    "Verif.ProjectFile.C114_launch",
    "Verif.ProjectFile.C114_lints",
    "Verif.ProjectFile.C114_conflict_launch",
    "Verif.ProjectFile.C114_conflict_lints",
    "Verif.ProjectFile.C114_violated_stringtables",
    "Verif.ProjectFile.C114_violated_comment"
   ],
   "note": "Violated by the code: lints for stringtables in project.toml are dropped without a word if there is a lints.toml (C114_violated_stringtables); a comment in lints.toml with [lints. in it is refused (C114_violated_comment). Proved: C114_heading, C114_launch, C114_lints, C114_conflict_launch, C114_conflict_lints."
  },
  {
   "property": "C115",
   "status": "partial",
   "theorems": [
    "Verif.Hls.C115_shown",
    "Verif.Hls.C115_check",
    "Verif.Hls.C115_violated_order"
   ],
   "note": "Holds if what is published is published in order (C115_shown); violated by the code because tasks are concurrent (C115_violated_order)."
  },
  {
   "property": "C116",
   "status": "partial",
   "theorems": [
    "C116_found",
    "C116_joined",
    "C116_violated_beside",
    "C116_violated_within",
    "C116_violated_outside",
    "C116_url"
   ],
   "note": "Holds for workspaces none of whose paths begins the other's path (C116_found) and for urls of unreserved characters (C116_url, an equivalence); otherwise violated by the code (C116_violated_*)."
  },
  {
   "property": "C117",
   "status": "proved",
   "theorems": [
    "C117_position"
   ],
   "note": "For places in a file that is not empty and not behind the last line end; see C96 for these."
  },
  {
   "property": "C118",
   "status": "partial",
   "theorems": [
    "Verif.Hover.C118_shown",
    "Verif.Hover.C118_nular",
    "Verif.Hover.C118_binary",
    "Verif.Hover.C118_violated_first",
    "Verif.Hover.C118_violated_end",
    "Verif.Hover.C118_violated_operator",
    "Verif.Hover.C118_violated_file",
    "Verif.Hover.C118_violated_line",
    "Verif.Hover.C118_nested"
   ],
   "note": "What is shown is right (C118_shown), and every command of a script, however deep it is in others, is shown away from its first character if the script stands in the file as written with a token between its parts (C118_nested; C118_nular, C118_binary without that for single commands); violated at first characters, at the end of the text, for operators without space, for other files and behind directives (C118_violated_*)."
  },
  {
   "property": "C119",
   "status": "partial",
   "theorems": [
    "Verif.Messages.C119_whole",
    "Verif.Messages.C119_delivered",
    "Verif.Messages.C119_violated_body",
    "Verif.Messages.C119_violated_length",
    "Verif.Messages.C119_mission",
    "Verif.Messages.C119_before",
    "Verif.Messages.C119_violated_unknown",
    "Verif.Messages.C119_violated_profile"
   ],
   "note": "Holds if only whole messages arrive between the reads (C119_whole, C119_delivered); violated by the code otherwise (C119_violated_body, C119_violated_length). Missions: C119_mission; violated for missions without action and some profile folders."
  },
  {
   "property": "C120",
   "status": "partial",
   "theorems": [
    "Verif.Photoshoot.C120_target",
    "Verif.Photoshoot.C120_foreign",
    "Verif.Photoshoot.C120_violated_other",
    "Verif.Photoshoot.C120_found",
    "Verif.Photoshoot.C120_asked",
    "Verif.Photoshoot.C120_nothing",
    "Verif.Photoshoot.C120_violated_case"
   ],
   "note": "Holds with names compared as written (C120_found, C120_target, C120_asked); violated for other mods with a longer prefix and for other spellings (C120_violated_*)."
  },
  {
   "property": "C121",
   "status": "partial",
   "theorems": [
    "Verif.Links.C121_launched",
    "Verif.Links.C121_kept",
    "Verif.Links.C121_asked",
    "Verif.Links.C121_violated_other",
    "Verif.Links.C121_violated_copied",
    "Verif.Links.C121_violated_moved"
   ],
   "note": "Proved where the folders are as they ordinarily are (C121_launched; C121_kept for a build that keeps what is there). Not true of the code in general: a link of another project with the same prefix stays (C121_violated_other); with --just on unix so do links of a project that was copied (C121_violated_copied), and a broken link stops the build (C121_violated_moved)."
  },
  {
   "property": "C122",
   "status": "partial",
   "theorems": [
    "Verif.Links.C122_tree",
    "Verif.Links.C122_violated_nested",
    "Verif.Links.C122_violated_include"
   ],
   "note": "Proved if no prefix is within another one and no include above a prefix (C122_tree). Otherwise a link is made in a folder of sources (C122_violated_nested), or an include is not seen (C122_violated_include)."
  },
  {
   "property": "C123",
   "status": "partial",
   "theorems": [
    "Verif.Preproc.C123_no_crash_partial",
    "Verif.Preproc.C123_ends_partial",
    "Verif.Preproc.C123_last_line",
    "Verif.Preproc.C123_violated_alias",
    "Verif.Preproc.C123_violated_nothing",
    "Verif.Preproc.C123_violated_last_line",
    "Verif.Preproc.C123_violated_reset",
    "Verif.Preproc.C123_violated_directive"
   ],
   "note": "Proved for tidy sources (C123_no_crash_partial, and with C31 that it ends: C123_ends_partial); missing is the second #else of an #if, for which the model has a result of its own. Not true of all sources: C123_violated_alias, C123_violated_nothing, C123_violated_last_line, C123_violated_reset, C123_violated_directive."
  },
  {
   "property": "C124",
   "status": "partial",
   "theorems": [
    "Verif.Similar.C124_values",
    "Verif.Similar.C124_typo",
    "Verif.Similar.C124_macros",
    "Verif.Similar.C124_pragma",
    "Verif.Similar.C124_pragma_all",
    "Verif.Similar.C124_presets",
    "Verif.Similar.C124_configs",
    "Verif.Similar.C124_violated_mission",
    "Verif.Similar.C124_violated_preset",
    "Verif.Similar.C124_violated_pragma",
    "Verif.Similar.C124_violated_order"
   ],
   "note": "The distance is a parameter that counts like Levenshtein distance (insertions, deletions, replacements). Holds for lint codes, macros, presets and configurations as far as stated; violated by the program: missions in .hemtt/missions are never suggested, presets that cannot be found are (C124_violated_preset), two pragma words never are, and the order of a hash map decides among ties."
  },
  {
   "property": "C125",
   "status": "partial",
   "theorems": [
    "Verif.Preproc.C125_unreadable",
    "Verif.Preproc.C125_primary",
    "Verif.Preproc.C125_secondary",
    "Verif.Preproc.C125_shown",
    "Verif.Preproc.C125_warnings",
    "Verif.Preproc.C125_output",
    "Verif.Preproc.C125_text",
    "Verif.Preproc.C125_output_text",
    "Verif.Preproc.C125_violated_nothing",
    "Verif.Preproc.C125_violated_count",
    "Verif.Preproc.C125_violated_compare"
   ],
   "note": "Every report with its marks, for all sources, as positions of tokens and as stretches of the text. Violated by the program: an include without quotes fails with no report (C125_violated_nothing), PE9 marks the place of the definition in the file of the call (C125_violated_count), PE16 has the number of PE15 and crashes for an empty macro (C125_violated_compare)."
  },
  {
   "property": "C126",
   "status": "partial",
   "theorems": [
    "Verif.ConfigNote.C126_contains",
    "Verif.ConfigNote.C126_line",
    "Verif.ConfigNote.C126_violated_line_feed",
    "Verif.ConfigNote.C126_violated_end",
    "Verif.ConfigNote.C126_violated_bytes"
   ],
   "note": "Proved: the note always contains the error and never crashes (C126_contains); for texts of one-byte characters it is exactly the touched lines unless the error begins at a line feed (C126_line). The full statement is violated: an error at the end of a line shows the next line (C126_violated_line_feed), one at the end of the file shows nothing (C126_violated_end), and byte and character offsets are mixed (C126_violated_bytes)."
  },
  {
   "property": "C127",
   "status": "partial",
   "theorems": [
    "Verif.Inspect.C127_archive",
    "Verif.Inspect.C127_warnings",
    "Verif.Inspect.C127_extract",
    "Verif.Inspect.C127_key",
    "Verif.Inspect.C127_signature",
    "Verif.Inspect.C127_violated_private_key",
    "Verif.Inspect.C127_violated_authority",
    "Verif.Inspect.C127_violated_extension"
   ],
   "note": "Proved for archives, keys and signatures (C127_archive, C127_key, C127_signature), the warnings (C127_warnings) and extraction (C127_extract). Violated: inspecting a private key crashes (C127_violated_private_key), an authority can look like a texture (C127_violated_authority), extensions in capitals and short files (C127_violated_extension)."
  },
  {
   "property": "C128",
   "status": "partial",
   "theorems": [
    "Verif.Update.C128_requests",
    "Verif.Update.C128_announced",
    "Verif.Update.C128_within",
    "Verif.Update.C128_no_answer",
    "Verif.Update.C128_local",
    "Verif.Update.C128_violated_stopped",
    "Verif.Update.C128_violated_cut"
   ],
   "note": "Proved: C128_requests, C128_announced, C128_within, C128_no_answer, C128_local. Violated: a command that is stopped between creating and writing the file makes every command crash for twelve hours (C128_violated_stopped), or a cut name is compared (C128_violated_cut)."
  },
  {
   "property": "C129",
   "status": "proved",
   "theorems": [
    "Verif.Sqf.C129_text",
    "Verif.Sqf.C129_found",
    "Verif.Sqf.C129_meaning",
    "Verif.Sqf.C129_outcome"
   ],
   "note": "Composition of C50, C28, C23, C25, C26 and C34 from the text to the bytes: C129_text, C129_found, C129_meaning, C129_outcome. The meaning of commands is a parameter restricted by Laws (what C23 uses) and NameLaws; Demo gives a meaning that meets both, and a script followed from its text to 232 bytes and back. Arrays of 65536 elements and else in arrays abort in the code (C24, C25)."
  },
  {
   "property": "C130",
   "status": "partial",
   "theorems": [
    "Verif.Rapifier.C130_which",
    "Verif.Rapifier.C130_pattern",
    "Verif.Rapifier.C130_where",
    "Verif.Rapifier.C130_threads",
    "Verif.Rapifier.C130_report",
    "Verif.Rapifier.C130_fails",
    "Verif.Rapifier.C130_finishes",
    "Verif.Rapifier.C130_violated_exclude",
    "Verif.Rapifier.C130_violated_threads"
   ],
   "note": "C130_which, C130_pattern, C130_where, C130_threads, C130_report, C130_fails and C130_finishes hold. Two parts of the claim are false of the code: C130_violated_exclude shows that patterns written relative to the addon's folder, as in the book, exclude nothing, because they are matched against the whole path with a slash in front; C130_violated_threads shows that when an .rvmat or .ext file includes another one, the result depends on which thread is faster. C130_threads therefore asks that no file reads the result for another one."
  },
  {
   "property": "C131",
   "status": "proved",
   "theorems": [
    "Verif.Sources.C131_threads",
    "Verif.Sources.C131_sources",
    "Verif.Sources.C131_pbo",
    "Verif.Sources.C131_script",
    "Verif.Sources.C131_config"
   ],
   "note": "C131_threads for scripts, C131_sources for both modules one after the other, C131_pbo for the PBO read back, C131_script and C131_config for what the results mean (with C129, C56 and C78). The claim's condition that no source reads the result of another one is a hypothesis; C130_violated_threads shows that it is needed."
  },
  {
   "property": "C132",
   "status": "partial",
   "theorems": [
    "Verif.Preproc.C132_plain",
    "Verif.Preproc.C132_stands",
    "Verif.Preproc.C132_line",
    "Verif.Preproc.C132_file",
    "Verif.Preproc.C132_name",
    "Verif.Preproc.C132_short",
    "Verif.Preproc.C132_short_dot",
    "Verif.Preproc.C132_counter",
    "Verif.Preproc.C132_distinct",
    "Verif.Preproc.C132_file_game_partial",
    "Verif.Preproc.C132_violated_short",
    "Verif.Preproc.C132_violated_prefix",
    "Verif.Preproc.C132_violated_expanded"
   ],
   "note": "C132_plain gives the exact output of files without # and backslash; C132_stands, _line, _file, _name, _short are for all files whose macro bodies hold no directives (no two tokens at one place); C132_counter and C132_distinct for files without __COUNTER_RESET__. Violated by the code: __FILE_SHORT__ of a name without a dot is empty (C132_violated_short), __FILE__ ignores the prefix of the addon (C132_violated_prefix), the name of a file is itself expanded when it is the name of a macro (C132_violated_expanded); after 65536 uses numbers repeat."
  },
  {
   "property": "C133",
   "status": "proved",
   "theorems": [
    "Verif.Sources.C133_pre",
    "Verif.Sources.C133_script",
    "Verif.Sources.C133_config",
    "Verif.Sources.C133_fresh",
    "Verif.Sources.C133_plain"
   ],
   "note": "C133_pre: reading files on demand gives what the preprocessor gives on all files, and reads only the root and files that a name can mean. C133_script, C133_config: the results mean what the processed text says. C133_fresh: no races when no result exists before. C133_plain: sources without # and \\ are parsed as their text without comments. Which file a name means is a parameter that does not change during the build; the depth of the preprocessor is bounded by a number that can be any; each file is read once where the code reads it again."
  },
  {
   "property": "C134",
   "status": "partial",
   "theorems": [
    "Verif.Value.C134_list",
    "Verif.Value.C134_version",
    "Verif.Value.C134_release",
    "Verif.Value.C134_files",
    "Verif.Value.C134_disk",
    "Verif.Value.C134_violated_include"
   ],
   "note": "Proved for projects whose file of the version is not in the folder include. C134_violated_include: a build looks for that file in the folder include too, hemtt value does not, so a project that has it only there builds but prints no value, not even its name. The text of a run that fails is not modelled."
  },
  {
   "property": "C135",
   "status": "partial",
   "theorems": [
    "Verif.Sources.C135_packed",
    "Verif.Sources.C135_files",
    "Verif.Sources.C135_same",
    "Verif.Sources.C135_violated_properties"
   ],
   "note": "Proved for addons with at most one prefix file, names that differ up to case, and at most one property of their own in project.toml and in addon.toml (C135_packed, C135_files, C135_same). With two properties the claim is false: they come from a hash map and are written in its order (C135_violated_properties)."
  },
  {
   "property": "C136",
   "status": "partial",
   "theorems": [
    "Verif.Commands.C136_fails",
    "Verif.Commands.C136_passes",
    "Verif.Commands.C136_release",
    "Verif.Commands.C136_violated_pdrive",
    "Verif.Commands.C136_violated_sign"
   ],
   "note": "Proved whenever check and build have the same P drive setting (C136_fails, C136_passes, C136_release). Violated by the code otherwise: check has its own P drive setting (C136_violated_pdrive), and what only signing looks at is not seen by check (C136_violated_sign)."
  },
  {
   "property": "C137",
   "status": "proved",
   "theorems": [
    "Verif.Release.C137_verified",
    "Verif.Release.C137_changed"
   ],
   "note": "C137_verified: the exact lines printed. C137_changed: what holds of a replaced PBO that is still verified. Composes the packing (C78), the signing (C79), the reader (C07, C08), the coverage of signatures (C15) and the verifying command (C108)."
  },
  {
   "property": "C138",
   "status": "partial",
   "theorems": [
    "Verif.Run.C138_status",
    "Verif.Run.C138_annotations",
    "Verif.Run.C138_alone",
    "Verif.Run.C138_fails",
    "Verif.Run.C138_error",
    "Verif.Run.C138_violated_book",
    "Verif.Run.C138_violated_launch",
    "Verif.Run.C138_violated_launch_fresh"
   ],
   "note": "Proved for check, dev, build, release, localization, script, value and for new, utils, wiki. Violated by the code, with witnesses: hemtt book fails where no command has been run on a project before (C138_violated_book); launch and photoshoot, when they end before a build, keep the annotations of the run before, or fail if there are none (C138_violated_launch, C138_violated_launch_fresh)."
  },
  {
   "property": "C139",
   "status": "partial",
   "theorems": [
    "Verif.VersionCache.C139_hooks",
    "Verif.VersionCache.C139_moment",
    "Verif.VersionCache.C139_used",
    "Verif.VersionCache.C139_same",
    "Verif.VersionCache.C139_violated_script",
    "Verif.VersionCache.C139_violated_abort"
   ],
   "note": "Proved for hooks (C139_hooks), PBOs, key and archive (C139_moment, C139_used, C139_same). Violated by the code for scripts that hooks run: they are told the version from before the hook (C139_violated_script); a version that cannot be read after a hook aborts the program at the next hook (C139_violated_abort)."
  },
  {
   "property": "C140",
   "status": "partial",
   "theorems": [
    "Verif.WikiLinks.C140_written",
    "Verif.WikiLinks.C140_links_partial",
    "Verif.WikiLinks.C140_violated_space"
   ],
   "note": "C140_written gives what is shown for every description; C140_links_partial: it is right if titles shown as they are have no spaces. Otherwise the claim is false of the code: C140_violated_space."
  },
  {
   "property": "C141",
   "status": "partial",
   "theorems": [
    "Verif.WikiLinks.C141_code_partial",
    "Verif.WikiLinks.C141_violated_array",
    "Verif.WikiFeature.C141_markdown_partial"
   ],
   "note": "C141_code_partial, and C141_markdown_partial for all of markdown: code without two opening brackets in a row is shown as it is. Otherwise the claim is false of the code: C141_violated_array (arrays that begin with an array are taken for links). Missing: code that has '<' before 's' or '/', or two opening braces in a row."
  },
  {
   "property": "C142",
   "status": "partial",
   "theorems": [
    "Verif.WikiFeature.C142_written",
    "Verif.WikiFeature.C142_box_partial",
    "Verif.WikiFeature.C142_violated_behind"
   ],
   "note": "C142_written says what is taken for the box; C142_box_partial: it is right if no brace is opened before the box and none closed behind it. Otherwise the claim is false of the code: C142_violated_behind (the box is taken to reach to the last closing braces of the description). Missing: blanks around the parts of the box, and letter case of its name."
  }
 ]
}