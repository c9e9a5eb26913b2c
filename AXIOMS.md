# Axioms of the property theorems

Output of `#print axioms` for every theorem in MANIFEST.json. No other axiom occurs.

| theorem | axioms |
|---|---|
| CC.C01_quote_in_context | propext, Quot.sound |
| CC.C01_quote_roundtrip | propext, Quot.sound |
| CC.C01_quote_concat | propext, Quot.sound |
| CC.C01_quote_empty_flag | propext |
| CC.C01_quote_injective | propext, Quot.sound |
| CC.C02_join_quoted_roundtrip | propext, Classical.choice, Quot.sound |
| CC.C03_fish_quote_in_context_partial | propext, Quot.sound |
| CC.C03_fish_join_quoted_partial | propext, Classical.choice, Quot.sound |
| CC.C03_backslash_false | propext, Classical.choice, Quot.sound |
| CC.C03_trailing_backslash_false | propext, Classical.choice, Quot.sound |
| CC.C03_backquote_false | propext, Classical.choice, Quot.sound |
| CC.C04_make_identifier_valid | propext |
| CC.C04_make_identifier_empty | propext, Classical.choice, Quot.sound |
| CC.C04_no_double_underscore | propext |
| CC.C04_letters_survive | propext, Classical.choice, Quot.sound |
| CC.C04_make_identifier_idempotent | propext, Classical.choice, Quot.sound |
| CC.C05_condition_command_expand_partial | propext, Quot.sound |
| CC.C05_condition_command_args_partial | propext, Classical.choice, Quot.sound |
| CC.C05_backquote_false | propext, Classical.choice, Quot.sound |
| CC.C06_lex_render | propext, Classical.choice, Quot.sound |
| CC.C06_parse_render | propext, Classical.choice, Quot.sound |
| CC.C06_one_command | propext, Classical.choice, Quot.sound |
| CC.C07_check_exact_partial | propext, Classical.choice, Quot.sound |
| CC.C07_complete | propext, Classical.choice, Quot.sound |
| CC.C07_unambiguous | propext, Quot.sound |
| CC.C07_false | propext, Classical.choice, Quot.sound |
| CC.C07_lone_bang_accepted | propext, Classical.choice, Quot.sound |
| CC.C07_juxtaposition_accepted | propext, Classical.choice, Quot.sound |
| CC.C07_commands_nonempty_partial | propext, Quot.sound |
| CC.C08_bash_partial | propext, Classical.choice, Quot.sound |
| CC.C08_zsh_partial | propext, Classical.choice, Quot.sound |
| CC.C08_zsh_total | propext, Quot.sound |
| CC.C08_bash_total | propext, Quot.sound |
| CC.C08_positional_zero_false | propext, Classical.choice, Quot.sound |
| CC.C08_empty_value_false | propext |
| CC.C08_shells_disagree | propext, Classical.choice, Quot.sound |
| CC.C08_bash_text_partial | propext, Classical.choice, Quot.sound |
| CC.C08_zsh_text_partial | propext, Classical.choice, Quot.sound |
| CC.C09_reorder_perm | propext |
| CC.C09_reorder_stable | propext, Classical.choice, Quot.sound |
| CC.C09_fish_offers_partial | propext, Classical.choice, Quot.sound |
| CC.C09_fish_offers_no_when | propext, Quot.sound |
| CC.C09_repeated_value_false | propext, Classical.choice, Quot.sound |
| CC.C10_option_is | propext, Classical.choice, Quot.sound |
| CC.C10_option_match | propext, Classical.choice, Quot.sound |
| CC.C10_has_option | propext |
| CC.C10_positional_count | propext |
| CC.C10_positional_contains | propext, Classical.choice, Quot.sound |
| CC.C10_commands | propext, Classical.choice, Quot.sound |
| CC.C11_exact_partial | propext, Classical.choice, Quot.sound |
| CC.C11_single_digits | propext, Quot.sound |
| CC.C11_example | propext, Classical.choice, Quot.sound |
| CC.C11_numbers | propext, Classical.choice, Quot.sound |
| CC.C11_special_character | propext, Classical.choice, Quot.sound |
| CC.C11_quoted_names | propext, Classical.choice, Quot.sound |
| CC.C12_bash_partial | propext, Classical.choice, Quot.sound |
| CC.C12_bash_special_character | propext, Classical.choice, Quot.sound |
| CC.C12_fish_partial | propext, Classical.choice, Quot.sound |
| CC.C12_fish_special_character | propext, Classical.choice, Quot.sound |
| CC.C12_example | propext, Classical.choice, Quot.sound |
| CC.C13_regex_partial | propext, Classical.choice, Quot.sound |
| CC.C13_example | propext, Classical.choice, Quot.sound |
| CC.C13_backslash | propext, Classical.choice, Quot.sound |
| CC.C13_caret | propext, Classical.choice, Quot.sound |
| CC.C13_caret_inside | propext, Classical.choice, Quot.sound |
| CC.C13_negated_parenthesis | propext, Classical.choice, Quot.sound |
| CC.C13_quoted_dash | propext, Classical.choice, Quot.sound |
| CC.C13_dollar | propext, Classical.choice, Quot.sound |
| CC.C13_crash | propext, Classical.choice, Quot.sound |
| CC.C14_zsh_partial | propext, Classical.choice, Quot.sound |
| CC.C14_example | propext, Classical.choice, Quot.sound |
| CC.C14_parenthesis | propext, Classical.choice, Quot.sound |
| CC.C14_quote_in_brackets | propext, Classical.choice, Quot.sound |
| CC.C15_exactly_one | propext, Quot.sound |
| CC.C15_getters | propext, Classical.choice, Quot.sound |
| CC.C15_accepted | propext, Quot.sound |
| CC.C16_key | propext, Quot.sound |
| CC.C16_nearest | propext, Classical.choice, Quot.sound |
| CC.C16_mem | propext, Classical.choice, Quot.sound |
| CC.C16_own | propext, Classical.choice, Quot.sound |
| CC.C16_together | propext, Classical.choice, Quot.sound |
| CC.C17_conflicts | propext, Quot.sound |
| CC.C17_symmetric | propext, Quot.sound |
| CC.C17_not_added | propext, Classical.choice, Quot.sound |
| CC.C18_absolute | propext, Quot.sound |
| CC.C18_levels | propext, Quot.sound |
| CC.C18_no_overlap | propext, Quot.sound |
| CC.C18_add_subcommands | propext, Quot.sound |
| CC.C18_added_later_false | propext, Classical.choice, Quot.sound |
| CC.C19_traversal | propext, Quot.sound |
| CC.C19_order | propext, Quot.sound |
| CC.C19_paths_distinct | propext, Classical.choice, Quot.sound |
| CC.C19_path_strings | propext, Classical.choice, Quot.sound |
| CC.C19_places | propext, Quot.sound |
| CC.C20_copy | propext, Classical.choice, Quot.sound |
| CC.C20_identical | propext, Classical.choice, Quot.sound |
| CC.C20_well_numbered | propext, Classical.choice, Quot.sound |
| CC.C20_unique_names | propext, Classical.choice, Quot.sound |
| CC.C20_example | propext, Classical.choice, Quot.sound |
| CC.C21_same_tree | propext, Classical.choice, Quot.sound |
| CC.C21_commands | propext, Classical.choice, Quot.sound |
| CC.C21_options | propext, Classical.choice, Quot.sound |
| CC.C21_positionals | propext, Classical.choice, Quot.sound |
| CC.C21_nothing_inherited | propext, Classical.choice, Quot.sound |
| CC.C21_idempotent | propext, Quot.sound |
| CC.C21_whens | propext, Classical.choice, Quot.sound |
| CC.C22_history | propext, Quot.sound |
| CC.C22_step | propext, Quot.sound |
| CC.C22_lookup | propext, Quot.sound |
| CC.C23_fails_iff | propext, Quot.sound |
| CC.C23_result | propext, Quot.sound |
| CC.C23_order | propext, Quot.sound |
| CC.C24_exactly | propext, Classical.choice, Quot.sound |
| CC.C24_longest_first | propext, Classical.choice, Quot.sound |
| CC.C24_unshared | propext, Classical.choice, Quot.sound |
| CC.C24_not_another_word | propext, Classical.choice, Quot.sound |
| CC.C24_min_length | propext, Classical.choice, Quot.sound |
| CC.C24_option_generator | propext, Classical.choice, Quot.sound |
| CC.C25_false | propext, Classical.choice, Quot.sound |
| CC.C25_disjoint_partial | propext, Classical.choice, Quot.sound |
| CC.C25_no_abbreviation | propext, Classical.choice, Quot.sound |
| CC.C25_names_select | propext, Classical.choice, Quot.sound |
| CC.C26_round_trip_partial | propext, Classical.choice, Quot.sound |
| CC.C26_identical | propext, Classical.choice, Quot.sound |
| CC.C26_example | propext, Classical.choice, Quot.sound |
| CC.C26_empty_completer_lost | propext, Classical.choice, Quot.sound |
| CC.C26_empty_subcommands_lost | propext, Classical.choice, Quot.sound |
| CC.C26_space_in_name | propext, Classical.choice, Quot.sound |
| CC.C27_accepted_iff | propext, Classical.choice, Quot.sound |
| CC.C27_tree | propext, Classical.choice, Quot.sound |
| CC.C27_example | propext, Classical.choice, Quot.sound |
| CC.C27_rejected | propext, Classical.choice, Quot.sound |
| CC.C28_everywhere | propext |
| CC.C28_none_left | propext |
| CC.C28_one_pass | propext, Classical.choice, Quot.sound |
| CC.C28_unchanged | propext, Classical.choice, Quot.sound |
| CC.C28_no_defines | propext, Classical.choice, Quot.sound |
| CC.C28_documents | propext, Classical.choice, Quot.sound |
| CC.C28_example | propext, Classical.choice, Quot.sound |
| CC.C28_replaces_names | propext, Classical.choice, Quot.sound |
| CC.C29_documents | propext, Quot.sound |
| CC.C29_deref_unique | propext, Quot.sound |
| CC.C29_different_keys | propext, Quot.sound |
| CC.C29_alias | propext |
| CC.C29_complex_key | propext, Quot.sound |
| CC.C29_scalar_documents | propext |
| CC.C29_scalars | propext, Classical.choice, Quot.sound |
| CC.C29_example | propext, Classical.choice, Quot.sound |
| CC.C30_fix_option | propext, Classical.choice, Quot.sound |
| CC.C30_non_dict | propext, Classical.choice, Quot.sound |
| CC.C30_fix_commandline | propext, Classical.choice, Quot.sound |
| CC.C30_fix_commandlines | propext, Classical.choice, Quot.sound |
| CC.C30_idempotent | propext, Classical.choice, Quot.sound |
| CC.C31_seq | propext, Quot.sound |
| CC.C31_brace | propext, Quot.sound |
| CC.C31_validated | propext, Classical.choice, Quot.sound |
| CC.C31_empty_range_false | none |
| CC.C32_options | propext, Classical.choice, Quot.sound |
| CC.C32_option_strings | propext, Classical.choice, Quot.sound |
| CC.C32_positionals | propext, Classical.choice, Quot.sound |
| CC.C32_command | propext, Classical.choice, Quot.sound |
| CC.C32_subcommands | propext, Classical.choice, Quot.sound |
| CC.C32_exclusive | propext, Classical.choice, Quot.sound |
| CC.C32_accepted_iff | propext, Classical.choice, Quot.sound |
| CC.C32_subcommand_last | propext, Classical.choice, Quot.sound |
| CC.C32_positional_after_subparsers | propext, Classical.choice, Quot.sound |
| CC.C32_example | propext, Classical.choice, Quot.sound |
| CC.C32_example_supported | propext, Classical.choice, Quot.sound |
| CC.C32_example_groups | propext, Classical.choice, Quot.sound |
| CC.C32_example_exclusive | propext, Classical.choice, Quot.sound |
| CC.C33_accepted_partial | propext, Classical.choice, Quot.sound |
| CC.C33_numbers | propext, Classical.choice, Quot.sound |
| CC.C33_false | propext, Classical.choice, Quot.sound |
| CC.C34_accepted_partial | propext, Classical.choice, Quot.sound |
| CC.C34_accepts_partial | propext, Classical.choice, Quot.sound |
| CC.C34_false | propext, Classical.choice, Quot.sound |
| CC.C35_sound | propext, Classical.choice, Quot.sound |
| CC.C35_exact_partial | propext, Classical.choice, Quot.sound |
| CC.C35_definitions | propext, Classical.choice, Quot.sound |
| CC.C35_range | propext, Classical.choice, Quot.sound |
| CC.C35_known | propext, Classical.choice, Quot.sound |
| CC.C35_none_after_prefix | propext, Classical.choice, Quot.sound |
| CC.C35_command_arg_in_combine | propext, Classical.choice, Quot.sound |
| CC.C36_preprocess | propext, Classical.choice, Quot.sound |
| CC.C36_no_directives | propext, Classical.choice, Quot.sound |
| CC.C36_output_lines | propext, Classical.choice, Quot.sound |
| CC.C36_crash | propext, Classical.choice, Quot.sound |
| CC.C37_indent_lines | propext, Classical.choice, Quot.sound |
| CC.C37_indent_indent | propext, Classical.choice, Quot.sound |
| CC.C37_indent_zero | propext, Quot.sound |
| CC.C38_join_with_wrap | propext, Quot.sound |
| CC.C38_line_lengths | propext, Quot.sound |
| CC.C39_strip_comments | propext, Classical.choice, Quot.sound |
| CC.C39_strip_comments_idempotent | propext, Quot.sound |
| CC.C39_strip_double_empty_lines | propext, Quot.sound |
| CC.C39_not_idempotent | propext, Classical.choice, Quot.sound |
| CC.C40_uniq_mem | propext |
| CC.C40_uniq_nodup | propext |
| CC.C40_uniq_order | propext, Quot.sound |
| CC.C40_partition | propext |
| CC.C40_flatten | propext |
| CC.C40_group_by_keys | propext, Classical.choice, Quot.sound |
| CC.C40_group_by_groups | propext, Classical.choice, Quot.sound |
| CC.C40_numbers_are_contiguous | propext, Quot.sound |
| CC.C41_length | propext, Quot.sound |
| CC.C41_get | propext, Classical.choice, Quot.sound |
| CC.C41_insert_past_end | propext, Quot.sound |
| CC.C42_search | propext, Classical.choice, Quot.sound |
| CC.C42_names | propext, Classical.choice, Quot.sound |
| CC.C42_example | propext, Classical.choice, Quot.sound |
| CC.C42_positional_names | propext, Classical.choice, Quot.sound |
| CC.C42_helper_clash | propext, Classical.choice, Quot.sound |
| CC.C43_closure | propext, Classical.choice, Quot.sound |
| CC.C43_unknown | none |
| CC.C43_later_additions | propext |
| CC.C43_repositories | propext, Classical.choice, Quot.sound |
| CC.C43_circle | propext, Classical.choice, Quot.sound |
| CC.C43_example | propext, Classical.choice, Quot.sound |
| CC.C44_distinct_partial | propext, Classical.choice, Quot.sound |
| CC.C44_collision | propext, Classical.choice, Quot.sound |
| CC.C44_example | propext, Classical.choice, Quot.sound |
| CC.C45_agree_partial | propext, Classical.choice, Quot.sound |
| CC.C45_unknown_long | propext, Classical.choice, Quot.sound |
| CC.C45_flag_value | propext, Classical.choice, Quot.sound |
| CC.C45_short_equals | propext, Classical.choice, Quot.sound |
| CC.C45_inherited_flag | propext, Classical.choice, Quot.sound |
| CC.C45_positionals | propext, Classical.choice, Quot.sound |
| CC.C46_v1_partial | propext, Classical.choice, Quot.sound |
| CC.C46_v2_partial | propext, Classical.choice, Quot.sound |
| CC.C46_name_prefix | propext, Classical.choice, Quot.sound |
| CC.C46_example | propext, Classical.choice, Quot.sound |
| CC.C47_offered_partial | propext, Classical.choice, Quot.sound |
| CC.C47_readable | propext, Classical.choice, Quot.sound |
| CC.C47_unreadable | propext, Classical.choice, Quot.sound |
| CC.C47_typed_partial | propext, Classical.choice, Quot.sound |
| CC.C47_example | propext, Classical.choice, Quot.sound |
| CC.C47_example_hypotheses | propext, Classical.choice, Quot.sound |
| CC.C48_name | propext, Classical.choice, Quot.sound |
| CC.C48_valid | propext, Classical.choice, Quot.sound |
| CC.C48_distinct_partial | propext, Classical.choice, Quot.sound |
| CC.C48_collisions | propext, Classical.choice, Quot.sound |
| CC.C48_invalid | propext, Classical.choice, Quot.sound |
| CC.C48_not_offered | propext, Classical.choice, Quot.sound |
| CC.C48_example | propext, Classical.choice, Quot.sound |
| CC.C49_fish_partial | propext, Classical.choice, Quot.sound |
| CC.C49_ambiguous | propext, Classical.choice, Quot.sound |
| CC.C49_zsh_partial | propext, Classical.choice, Quot.sound |
| CC.C50_command | propext, Classical.choice, Quot.sound |
| CC.C50_fails | propext, Classical.choice, Quot.sound |
| CC.C50_rejects | propext, Classical.choice, Quot.sound |
| CC.C50_exclusive | propext |
| CC.C50_get_again | propext, Classical.choice, Quot.sound |
| CC.C50_read_partial | propext, Classical.choice, Quot.sound |
| CC.C50_example | propext, Classical.choice, Quot.sound |
| CC.C50_example_hypotheses | propext, Classical.choice, Quot.sound |
| CC.C51_variables | propext, Classical.choice, Quot.sound |
| CC.C51_equal | propext, Classical.choice, Quot.sound |
| CC.C51_stable | propext |
| CC.C51_example | propext, Classical.choice, Quot.sound |
| CC.C52_description_partial | propext, Quot.sound |
| CC.C52_metavar_partial | propext |
| CC.C52_false | propext, Classical.choice, Quot.sound |
| CC.C52_example | propext, Classical.choice, Quot.sound |
| CC.C53_spec_partial | propext, Classical.choice, Quot.sound |
| CC.C53_option_partial | propext, Classical.choice, Quot.sound |
| CC.C53_example | propext, Classical.choice, Quot.sound |
| CC.C53_example_hypotheses | propext, Classical.choice, Quot.sound |
| CC.C53_empty_metavar | propext, Classical.choice, Quot.sound |
| CC.C53_dash_suffix | propext, Classical.choice, Quot.sound |
| CC.C53_positional_partial | propext, Classical.choice, Quot.sound |
| CC.C53_positional_example | propext, Classical.choice, Quot.sound |
| CC.C54_no_newline | propext, Classical.choice, Quot.sound |
| CC.C54_unclosed | propext, Classical.choice, Quot.sound |
| CC.C54_example | propext, Classical.choice, Quot.sound |
| CC.C54_covers | propext, Classical.choice, Quot.sound |
| CC.C54_crash_only | propext, Classical.choice, Quot.sound |
| CC.C54_total_partial | propext, Classical.choice, Quot.sound |
| CC.C55_output | propext, Quot.sound |
| CC.C55_pieces_present | propext, Quot.sound |
| CC.C56_dependencies_renamed_partial | propext, Classical.choice, Quot.sound |
| CC.C56_example | propext, Classical.choice, Quot.sound |
| CC.C56_hyphen | propext, Classical.choice, Quot.sound |
| CC.C57_parse_partial | propext, Classical.choice, Quot.sound |
| CC.C57_quoted_after_dashes | propext, Classical.choice, Quot.sound |
| CC.C57_example | propext, Classical.choice, Quot.sound |
| CC.C58_parse | propext, Classical.choice, Quot.sound |
| CC.C58_single_command | propext, Quot.sound |
| CC.C58_lookup_partial | propext, Classical.choice, Quot.sound |
| CC.C58_global_option_lost | propext, Classical.choice, Quot.sound |
| CC.C58_example | propext, Classical.choice, Quot.sound |
| CC.C59_action_partial | propext, Classical.choice, Quot.sound |
| CC.C59_false | propext, Classical.choice, Quot.sound |
| CC.C59_example | propext, Classical.choice, Quot.sound |
| CC.C59_quoted_partial | propext, Classical.choice, Quot.sound |
| CC.C60_validate_partial | propext, Classical.choice, Quot.sound |
| CC.C60_when | propext, Classical.choice, Quot.sound |
| CC.C60_completer | propext, Classical.choice, Quot.sound |
| CC.C60_example | propext, Classical.choice, Quot.sound |
| CC.C60_prog | propext, Classical.choice, Quot.sound |
| CC.C60_option_string | propext, Classical.choice, Quot.sound |
| CC.C60_positional | propext, Classical.choice, Quot.sound |
| CC.C60_command_arg_empty | propext, Classical.choice, Quot.sound |
| CC.C60_command_arg_number | propext, Classical.choice, Quot.sound |
| CC.C61_loads_partial | propext, Classical.choice, Quot.sound |
| CC.C61_null | propext, Classical.choice, Quot.sound |
| CC.C61_name | propext, Classical.choice, Quot.sound |
| CC.C61_deep | propext, Classical.choice, Quot.sound |
| CC.C62_layout | propext, Classical.choice, Quot.sound |
| CC.C62_example | propext, Classical.choice, Quot.sound |
| CC.C63_bash_partial | propext, Classical.choice, Quot.sound |
| CC.C63_bash_empty | propext, Classical.choice, Quot.sound |
| CC.C63_bash_example | propext, Classical.choice, Quot.sound |
| CC.C63_zsh_inline_partial | propext, Classical.choice, Quot.sound |
| CC.C63_zsh_strings | propext, Classical.choice, Quot.sound |
| CC.C63_zsh_integer | propext, Classical.choice, Quot.sound |
| CC.C63_zsh_list_function_partial | propext, Classical.choice, Quot.sound |
| CC.C63_zsh_table_function_partial | propext, Classical.choice, Quot.sound |
| CC.C63_zsh_backslash | propext, Classical.choice, Quot.sound |
| CC.C63_fish_inline_partial | propext, Classical.choice, Quot.sound |
| CC.C63_fish_code_partial | propext, Classical.choice, Quot.sound |
| CC.C63_fish_partial | propext, Classical.choice, Quot.sound |
| CC.C63_fish_example | propext, Classical.choice, Quot.sound |
| CC.C63_fish_same_text | propext, Classical.choice, Quot.sound |
| CC.C63_zsh_option_partial | propext, Classical.choice, Quot.sound |
| CC.C63_zsh_option_example | propext, Classical.choice, Quot.sound |
| CC.C64_types | propext, Classical.choice, Quot.sound |
| CC.C64_zsh_partial | propext, Classical.choice, Quot.sound |
| CC.C64_fish_partial | propext, Classical.choice, Quot.sound |
| CC.C64_fish_short_equals | propext, Classical.choice, Quot.sound |
| CC.C64_zsh_equals | propext, Classical.choice, Quot.sound |
| CC.C64_example | propext, Classical.choice, Quot.sound |
| CC.C65_script_partial | propext, Quot.sound |
| CC.C65_again_partial | propext, Quot.sound |
| CC.C65_left | propext, Quot.sound |
| CC.C65_shared_define | none |
| CC.C65_second_script | none |
| CC.C65_example | propext, Classical.choice, Quot.sound |
| CC.C66_next_partial | propext, Classical.choice, Quot.sound |
| CC.C66_equals_partial | propext, Classical.choice, Quot.sound |
| CC.C66_attached_partial | propext, Classical.choice, Quot.sound |
| CC.C66_inherited_partial | propext, Classical.choice, Quot.sound |
| CC.C66_quiet | propext, Classical.choice, Quot.sound |
| CC.C66_only_optional | propext, Classical.choice, Quot.sound |
| CC.C66_old_flag | propext, Classical.choice, Quot.sound |
| CC.C66_after_dashes | propext, Classical.choice, Quot.sound |
| CC.C66_value_like_option | propext, Classical.choice, Quot.sound |
| CC.C66_inherited_lost | propext, Classical.choice, Quot.sound |
| CC.C66_inherited_dash | propext, Classical.choice, Quot.sound |
| CC.C66_inherited_letter | propext, Classical.choice, Quot.sound |
| CC.C66_no_function | propext, Classical.choice, Quot.sound |
| CC.C66_example | propext, Classical.choice, Quot.sound |
| CC.C67_positional_partial | propext, Classical.choice, Quot.sound |
| CC.C67_subcommands_partial | propext, Classical.choice, Quot.sound |
| CC.C67_nothing_partial | propext, Classical.choice, Quot.sound |
| CC.C67_name_complete | propext, Classical.choice, Quot.sound |
| CC.C67_name_begun | propext, Classical.choice, Quot.sound |
| CC.C67_words_after | propext, Classical.choice, Quot.sound |
| CC.C67_command_twice | propext, Classical.choice, Quot.sound |
| CC.C67_example | propext, Classical.choice, Quot.sound |
| CC.C68_active | propext, Classical.choice, Quot.sound |
| CC.C68_option_partial | propext, Classical.choice, Quot.sound |
| CC.C68_offered_partial | propext, Classical.choice, Quot.sound |
| CC.C68_typed_partial | propext, Classical.choice, Quot.sound |
| CC.C68_before_positional | propext, Classical.choice, Quot.sound |
| CC.C68_sibling_argument | propext, Classical.choice, Quot.sound |
| CC.C68_alias_twice | propext, Classical.choice, Quot.sound |
| CC.C68_three_dashes | propext, Classical.choice, Quot.sound |
| CC.C68_final_below | propext, Classical.choice, Quot.sound |
| CC.C68_argument_lost | propext, Classical.choice, Quot.sound |
| CC.C68_example | propext, Classical.choice, Quot.sound |
| CC.C69_positional_partial | propext, Classical.choice, Quot.sound |
| CC.C69_subcommands_partial | propext, Classical.choice, Quot.sound |
| CC.C69_subcommands_lead | propext, Quot.sound |
| CC.C69_repeatable_before_subcommand | propext, Classical.choice, Quot.sound |
| CC.C70_dispatch_partial | propext, Classical.choice, Quot.sound |
| CC.C70_kind_changes | propext, Classical.choice, Quot.sound |
| CC.C70_not_parsed | propext, Classical.choice, Quot.sound |
| CC.C70_cursor_counts | propext, Classical.choice, Quot.sound |
| CC.C70_example | propext, Classical.choice, Quot.sound |
| CC.C71_offers_partial | propext, Classical.choice, Quot.sound |
| CC.C71_may_be_given_partial | propext, Classical.choice, Quot.sound |
| CC.C71_child_inherits | propext, Classical.choice, Quot.sound |
| CC.C71_false_condition | propext, Classical.choice, Quot.sound |
| CC.C71_final_of_parent | propext, Classical.choice, Quot.sound |
| CC.C72_positionals_partial | propext, Classical.choice, Quot.sound |
| CC.C72_star_early | propext, Classical.choice, Quot.sound |
| CC.C72_two_stars | propext, Classical.choice, Quot.sound |
| CC.C73_enhance_partial | propext, Classical.choice, Quot.sound |
| CC.C73_shallow_partial | propext, Classical.choice, Quot.sound |
| CC.C73_hidden | propext, Classical.choice, Quot.sound |
| CC.C73_deep_when | propext, Classical.choice, Quot.sound |
| CC.C73_name | propext, Classical.choice, Quot.sound |
| CC.C74_checked_partial | propext, Classical.choice, Quot.sound |
| CC.C74_accepts_partial | propext, Classical.choice, Quot.sound |
| CC.C74_deep | propext, Classical.choice, Quot.sound |
| CC.C74_blank_name | propext, Classical.choice, Quot.sound |
| CC.C75_round_trip_partial | propext, Classical.choice, Quot.sound |
| CC.C75_load_exported_partial | propext, Classical.choice, Quot.sound |
| CC.C75_text_injective_partial | propext, Classical.choice, Quot.sound |
| CC.C75_example | propext, Classical.choice, Quot.sound |
| CC.C75_example_text | propext, Classical.choice, Quot.sound |
| CC.C75_emoji_lost | propext, Classical.choice, Quot.sound |
| CC.C75_float_becomes_text | propext, Classical.choice, Quot.sound |
| CC.C75_number_key_becomes_text | propext, Classical.choice, Quot.sound |
| CC.C76_definition_partial | propext, Classical.choice, Quot.sound |
| CC.C76_usage_name | propext, Classical.choice, Quot.sound |
| CC.C76_first_word | propext |
| CC.C76_name_total | propext, Quot.sound |
| CC.C76_text_partial | propext, Classical.choice, Quot.sound |
| CC.C76_layout_partial | propext, Classical.choice, Quot.sound |
| CC.C76_completers | propext, Classical.choice, Quot.sound |
| CC.C76_example | propext, Classical.choice, Quot.sound |
| CC.C76_two_brackets | propext, Classical.choice, Quot.sound |
| CC.C76_escape | propext, Classical.choice, Quot.sound |
| CC.C76_separator | propext, Classical.choice, Quot.sound |
| CC.C76_quote | propext, Classical.choice, Quot.sound |
| CC.C76_emoji | propext, Classical.choice, Quot.sound |
| CC.C76_blank | propext, Classical.choice, Quot.sound |
| CC.C77_document_partial | propext, Classical.choice, Quot.sound |
| CC.C77_text_partial | propext, Classical.choice, Quot.sound |
| CC.C77_layout_partial | propext, Classical.choice, Quot.sound |
| CC.C77_example | propext, Classical.choice, Quot.sound |
| CC.C77_cmd | propext, Classical.choice, Quot.sound |
| CC.C77_no_options | propext, Classical.choice, Quot.sound |
| CC.C77_no_break_space | propext, Classical.choice, Quot.sound |
| CC.C78_bash_code_partial | propext, Classical.choice, Quot.sound |
| CC.C78_bash_function_partial | propext, Classical.choice, Quot.sound |
| CC.C78_login_shell | propext, Classical.choice, Quot.sound |
| CC.C78_example | propext, Classical.choice, Quot.sound |
| CC.C79_combine_partial | propext, Classical.choice, Quot.sound |
| CC.C79_example | propext, Classical.choice, Quot.sound |
| CC.C79_lost | propext, Classical.choice, Quot.sound |
| CC.C79_leak | propext, Classical.choice, Quot.sound |
| CC.C79_path | propext, Classical.choice, Quot.sound |
| CC.C79_cur | propext, Classical.choice, Quot.sound |
| CC.C79_prefix | propext, Classical.choice, Quot.sound |
| CC.C80_dequote_partial | propext, Quot.sound |
| CC.C80_quote | propext, Quot.sound |
| CC.C80_example | propext, Classical.choice, Quot.sound |
| CC.C80_backslash | propext, Classical.choice, Quot.sound |
| CC.C80_newline | propext, Classical.choice, Quot.sound |
| CC.C81_prefix_partial | propext, Classical.choice, Quot.sound |
| CC.C81_offered | propext, Classical.choice, Quot.sound |
| CC.C81_example | propext, Classical.choice, Quot.sound |
| CC.C81_empty | propext |
| CC.C81_echo | propext, Classical.choice, Quot.sound |
| CC.C81_break | propext, Classical.choice, Quot.sound |
| CC.C82_value_list_partial | propext, Classical.choice, Quot.sound |
| CC.C82_example | propext, Classical.choice, Quot.sound |
| CC.C82_hidden | propext, Classical.choice, Quot.sound |
| CC.C82_break | propext, Classical.choice, Quot.sound |
| CC.C82_blank | propext, Classical.choice, Quot.sound |
| CC.C82_newline | propext, Classical.choice, Quot.sound |
| CC.C83_words_partial | propext, Quot.sound |
| CC.C83_quotes | propext, Classical.choice, Quot.sound |
| CC.C83_overlap | propext, Quot.sound |
| CC.C83_line_partial | propext, Quot.sound |
| CC.C83_example | propext, Classical.choice, Quot.sound |
| CC.C83_printf | propext, Quot.sound |
| CC.C83_blank | propext, Classical.choice, Quot.sound |
| CC.C84_key_value_list_partial | propext, Classical.choice, Quot.sound |
| CC.C84_key_value_pair_partial | propext, Classical.choice, Quot.sound |
| CC.C84_example | propext, Classical.choice, Quot.sound |
| CC.C84_blank_key | propext, Classical.choice, Quot.sound |
| CC.C84_value_break | propext, Classical.choice, Quot.sound |
| CC.C84_current_excludes | propext, Classical.choice, Quot.sound |
| CC.C84_star | propext, Classical.choice, Quot.sound |
| CC.C84_option_key | propext, Classical.choice, Quot.sound |
| CC.C85_zsh_action_partial | propext, Classical.choice, Quot.sound |
| CC.C85_zsh_function_partial | propext, Classical.choice, Quot.sound |
| CC.C85_service | propext, Classical.choice, Quot.sound |
| CC.C85_blank_key | propext, Classical.choice, Quot.sound |
| CC.C85_colon_key | propext, Classical.choice, Quot.sound |
| CC.C85_colon_value | propext, Classical.choice, Quot.sound |
| CC.C85_starred_value | propext, Classical.choice, Quot.sound |
| CC.C85_list_of_none | propext, Classical.choice, Quot.sound |
| CC.C85_list_of_code | propext, Classical.choice, Quot.sound |
| CC.C85_list_of_integers | propext, Classical.choice, Quot.sound |
| CC.C85_newline_combined | propext, Classical.choice, Quot.sound |
| CC.C85_backslash_action | propext, Classical.choice, Quot.sound |
| CC.C85_equals | propext, Classical.choice, Quot.sound |
| CC.C85_example | propext, Classical.choice, Quot.sound |
| CC.C86_fish_args_partial | propext, Classical.choice, Quot.sound |
| CC.C86_fish_function_partial | propext, Classical.choice, Quot.sound |
| CC.C86_date | propext, Classical.choice, Quot.sound |
| CC.C86_pair_condition | propext, Classical.choice, Quot.sound |
| CC.C86_prefix_directory | propext, Classical.choice, Quot.sound |
| CC.C86_order | propext, Classical.choice, Quot.sound |
| CC.C86_no_choices | propext, Classical.choice, Quot.sound |
| CC.C86_backslash | propext, Classical.choice, Quot.sound |
| CC.C86_example | propext, Classical.choice, Quot.sound |
| CC.C87_script_partial | propext, Classical.choice, Quot.sound |
| CC.C87_condition_calls | propext, Classical.choice, Quot.sound |
| CC.C87_offered_partial | propext, Classical.choice, Quot.sound |
| CC.C87_alias_is_program | propext, Classical.choice, Quot.sound |
| CC.C87_quote_in_name | propext, Classical.choice, Quot.sound |
| CC.C87_alias_runs | propext, Classical.choice, Quot.sound |
| CC.C87_wraps_runs | propext, Classical.choice, Quot.sound |
| CC.C87_newline_runs | propext, Classical.choice, Quot.sound |
| CC.C87_example | propext, Classical.choice, Quot.sound |
| CC.C88_wrapper | propext, Classical.choice, Quot.sound |
| CC.C88_words_partial | propext, Classical.choice, Quot.sound |
| CC.C88_cursor_partial | propext, Classical.choice, Quot.sound |
| CC.C88_strip | propext, Classical.choice, Quot.sound |
| CC.C88_example | propext, Classical.choice, Quot.sound |
| CC.C88_double_dash | propext, Classical.choice, Quot.sound |
| CC.C88_own_argument | propext, Classical.choice, Quot.sound |
| CC.C88_own_option | propext, Classical.choice, Quot.sound |
| CC.C88_caret | propext, Classical.choice, Quot.sound |
| CC.C88_three_dashes | propext, Classical.choice, Quot.sound |
| CC.C89_argument | propext, Classical.choice, Quot.sound |
| CC.C89_value | propext, Classical.choice, Quot.sound |
| CC.C89_operand_partial | propext, Classical.choice, Quot.sound |
| CC.C89_example | propext, Classical.choice, Quot.sound |
| CC.C89_operand_cut | propext, Classical.choice, Quot.sound |
| CC.C89_dashes_cut | propext, Classical.choice, Quot.sound |
| CC.C89_short_equals | propext, Classical.choice, Quot.sound |
| CC.C90_sound | propext, Classical.choice, Quot.sound |
| CC.C90_complete_partial | propext, Classical.choice, Quot.sound |
| CC.C90_variable | none |
| CC.C90_example | propext, Classical.choice, Quot.sound |
| CC.C90_typed | propext, Classical.choice, Quot.sound |
| CC.C90_deep | propext, Classical.choice, Quot.sound |
| CC.C90_deep_prefix | propext, Classical.choice, Quot.sound |
| CC.C90_star | propext, Classical.choice, Quot.sound |
| CC.C91_list_sound | propext, Classical.choice, Quot.sound |
| CC.C91_list_complete_partial | propext, Classical.choice, Quot.sound |
| CC.C91_pair_partial | propext, Classical.choice, Quot.sound |
| CC.C91_example | propext, Classical.choice, Quot.sound |
| CC.C91_typed_key | propext, Classical.choice, Quot.sound |
| CC.C91_value_cut | propext, Classical.choice, Quot.sound |
| CC.C92_bash_partial | propext, Classical.choice, Quot.sound |
| CC.C92_bash_generated_name | propext, Classical.choice, Quot.sound |
| CC.C92_fish_partial | propext, Classical.choice, Quot.sound |
| CC.C92_zsh_partial | propext, Classical.choice, Quot.sound |
| CC.C92_zsh_with_newline | propext, Classical.choice, Quot.sound |
| CC.C92_zsh_n | propext, Classical.choice, Quot.sound |
| CC.C92_zsh_twice | propext, Classical.choice, Quot.sound |
| CC.C92_zsh_flag | propext, Classical.choice, Quot.sound |
| CC.C92_shared | propext, Classical.choice, Quot.sound |
| CC.C92_example | propext, Classical.choice, Quot.sound |
| CC.C93_runs_partial | propext, Classical.choice, Quot.sound |
| CC.C93_offers_partial | propext, Classical.choice, Quot.sound |
| CC.C93_example | propext, Classical.choice, Quot.sound |
| CC.C93_line_break | propext, Classical.choice, Quot.sound |
| CC.C93_esac | propext, Classical.choice, Quot.sound |
| CC.C93_equals | propext, Classical.choice, Quot.sound |
| CC.C93_not_always | propext, Classical.choice, Quot.sound |
| CC.C94_fish_sound | propext, Classical.choice, Quot.sound |
| CC.C94_fish_complete_partial | propext, Classical.choice, Quot.sound |
| CC.C94_fish_pair_partial | propext, Quot.sound |
| CC.C94_bash_list_partial | propext, Classical.choice, Quot.sound |
| CC.C94_bash_pair_partial | propext, Classical.choice, Quot.sound |
| CC.C94_zsh_list_partial | propext, Classical.choice, Quot.sound |
| CC.C94_zsh_pair | propext, Classical.choice, Quot.sound |
| CC.C94_zsh_values | propext, Classical.choice, Quot.sound |
| CC.C94_example | propext, Classical.choice, Quot.sound |
| CC.C94_no_description | propext, Classical.choice, Quot.sound |
| CC.C94_zsh_star | propext, Classical.choice, Quot.sound |
| CC.C94_bash_eval | propext, Classical.choice, Quot.sound |
| CC.C94_fish_shift | propext, Classical.choice, Quot.sound |
| CC.C94_separator | propext, Classical.choice, Quot.sound |
| CC.C94_no_separator | propext, Classical.choice, Quot.sound |
| CC.C95_parser_partial | propext, Classical.choice, Quot.sound |
| CC.C95_determined | propext, Classical.choice, Quot.sound |
| CC.C95_tree_partial | propext, Classical.choice, Quot.sound |
| CC.C95_example | propext, Classical.choice, Quot.sound |
| CC.C95_environment | propext, Classical.choice, Quot.sound |
| CC.C95_esac | propext, Classical.choice, Quot.sound |
| CC.C95_local_variable | propext, Classical.choice, Quot.sound |
| CC.C95_semicolon | propext, Classical.choice, Quot.sound |
| CC.C95_v2_template | propext, Classical.choice, Quot.sound |
| CC.C95_v2_parser_partial | propext, Classical.choice, Quot.sound |
| CC.C95_v2_determined | propext, Classical.choice, Quot.sound |
| CC.C95_v2_tree_partial | propext, Classical.choice, Quot.sound |
| CC.C95_generated_partial | propext, Classical.choice, Quot.sound |
| CC.C95_shorter | propext, Classical.choice, Quot.sound |
| CC.C95_no_numbers | propext, Quot.sound |
| CC.C95_v2_example | propext, Classical.choice, Quot.sound |
| CC.C95_v2_local_variable | propext, Classical.choice, Quot.sound |
| CC.C95_v2_single | propext, Classical.choice, Quot.sound |
| CC.C96_text_function | propext, Classical.choice, Quot.sound |
| CC.C96_name | propext, Classical.choice, Quot.sound |
| CC.C96_values_partial | propext, Classical.choice, Quot.sound |
| CC.C96_left | propext, Classical.choice, Quot.sound |
| CC.C96_alone_partial | propext, Classical.choice, Quot.sound |
| CC.C96_example | propext, Classical.choice, Quot.sound |
| CC.C96_cword | propext, Classical.choice, Quot.sound |
| CC.C97_wrapper_partial | propext, Classical.choice, Quot.sound |
| CC.C97_program_partial | propext, Classical.choice, Quot.sound |
| CC.C97_none | propext, Classical.choice, Quot.sound |
| CC.C97_transparent | propext, Classical.choice, Quot.sound |
| CC.C97_example | propext, Classical.choice, Quot.sound |
| CC.C97_pattern | propext, Classical.choice, Quot.sound |
| CC.C97_load | propext, Classical.choice, Quot.sound |
| CC.C98_calls_partial | propext, Classical.choice, Quot.sound |
| CC.C98_complete_partial | propext, Classical.choice, Quot.sound |
| CC.C98_defined | propext, Classical.choice, Quot.sound |
| CC.C98_registered_partial | propext, Classical.choice, Quot.sound |
| CC.C98_names | propext, Classical.choice, Quot.sound |
| CC.C98_example | propext, Classical.choice, Quot.sound |
| CC.C98_collision | propext, Classical.choice, Quot.sound |
| CC.C98_undefined | propext, Classical.choice, Quot.sound |
| CC.C98_quoted | propext, Classical.choice, Quot.sound |
| CC.C98_esac | propext, Classical.choice, Quot.sound |
| CC.C99_delivers_partial | propext, Classical.choice, Quot.sound |
| CC.C99_nothing | propext, Classical.choice, Quot.sound |
| CC.C99_succeeds | propext, Classical.choice, Quot.sound |
| CC.C99_crash_partial | propext, Classical.choice, Quot.sound |
| CC.C99_executes | propext, Classical.choice, Quot.sound |
| CC.C99_paths | propext, Classical.choice, Quot.sound |
| CC.C99_inside_partial | propext, Classical.choice, Quot.sound |
| CC.C99_install_uninstall | propext, Classical.choice, Quot.sound |
| CC.C99_batch | propext, Classical.choice, Quot.sound |
| CC.C99_status_partial | propext, Classical.choice, Quot.sound |
| CC.C99_python_partial | propext, Classical.choice, Quot.sound |
| CC.C99_python_delivers | propext, Classical.choice, Quot.sound |
| CC.C99_example | propext, Classical.choice, Quot.sound |
| CC.C99_truncated | propext, Classical.choice, Quot.sound |
| CC.C99_ignored | propext, Classical.choice, Quot.sound |
| CC.C99_uninstall_needs_definition | propext, Classical.choice, Quot.sound |
| CC.C99_outside | propext, Classical.choice, Quot.sound |
| CC.C99_same_name | propext, Classical.choice, Quot.sound |
| CC.C99_exits | propext, Classical.choice, Quot.sound |
| CC.C99_twice | propext, Classical.choice, Quot.sound |
| CC.C99_nested | propext, Classical.choice, Quot.sound |
| CC.C100_settings | propext, Classical.choice, Quot.sound |
| CC.C100_extension | propext, Quot.sound |
| CC.C100_features | propext, Classical.choice, Quot.sound |
| CC.C100_boolean | propext, Classical.choice, Quot.sound |
| CC.C100_version | propext, Classical.choice, Quot.sound |
| CC.C100_example | propext, Classical.choice, Quot.sound |
| CC.C100_odd_versions | propext, Classical.choice, Quot.sound |
| CC.C101_options_partial | propext, Classical.choice, Quot.sound |
| CC.C101_operands_partial | propext, Classical.choice, Quot.sound |
| CC.C101_option_partial | propext, Classical.choice, Quot.sound |
| CC.C101_operand_partial | propext, Classical.choice, Quot.sound |
| CC.C101_repeatable | propext, Classical.choice, Quot.sound |
| CC.C101_alias | propext, Classical.choice, Quot.sound |
| CC.C101_example | propext, Classical.choice, Quot.sound |
| CC.C101_longer | propext, Classical.choice, Quot.sound |
| CC.C101_subcommand | propext, Classical.choice, Quot.sound |
| CC.C101_question | propext, Classical.choice, Quot.sound |
| CC.C102_offered_partial | propext, Classical.choice, Quot.sound |
| CC.C102_unreadable | propext, Classical.choice, Quot.sound |
| CC.C102_example_text | propext, Classical.choice, Quot.sound |
| CC.C102_example_run | propext, Classical.choice, Quot.sound |
| CC.C102_example_hypotheses | propext, Classical.choice, Quot.sound |
| CC.C102_unreadable_example | propext, Classical.choice, Quot.sound |
| CC.C103_completed_partial | propext, Classical.choice, Quot.sound |
| CC.C103_as_modelled_partial | propext, Classical.choice, Quot.sound |
| CC.C103_example_text | propext, Classical.choice, Quot.sound |
| CC.C103_example_run | propext, Classical.choice, Quot.sound |
| CC.C103_example_hypotheses | propext, Classical.choice, Quot.sound |
| CC.C103_not_first | propext, Classical.choice, Quot.sound |
| CC.C104_as_modelled_partial | propext, Classical.choice, Quot.sound |
| CC.C104_completed_partial | propext, Classical.choice, Quot.sound |
| CC.C104_written | propext, Classical.choice, Quot.sound |
| CC.C104_only_optional | propext, Classical.choice, Quot.sound |
| CC.C104_example_text | propext, Classical.choice, Quot.sound |
| CC.C104_example_hypotheses | propext, Classical.choice, Quot.sound |
| CC.C105_command_partial | propext, Classical.choice, Quot.sound |
| CC.C105_next_partial | propext, Classical.choice, Quot.sound |
| CC.C105_equals_partial | propext, Classical.choice, Quot.sound |
| CC.C105_attached_partial | propext, Classical.choice, Quot.sound |
| CC.C105_command_example | propext, Classical.choice, Quot.sound |
| CC.C105_as_modelled_partial | propext, Classical.choice, Quot.sound |
| CC.C105_with_function_partial | propext, Classical.choice, Quot.sound |
| CC.C105_example_text | propext, Classical.choice, Quot.sound |
| CC.C105_example_hypotheses | propext, Classical.choice, Quot.sound |
| CC.C105_negated | propext, Classical.choice, Quot.sound |
| CC.C106_delegated_partial | propext, Classical.choice, Quot.sound |
| CC.C106_dash_first | propext, Classical.choice, Quot.sound |
| CC.C106_option_value | propext, Classical.choice, Quot.sound |
| CC.C106_example | propext, Classical.choice, Quot.sound |
| CC.C106_text | propext, Classical.choice, Quot.sound |
| CC.C106_text_example | propext, Classical.choice, Quot.sound |
| CC.C107_functions | propext, Classical.choice, Quot.sound |
| CC.C107_functions_example | propext, Classical.choice, Quot.sound |
| CC.C107_quoted_break | propext, Classical.choice, Quot.sound |
| CC.C107_script | propext, Classical.choice, Quot.sound |
| CC.C107_script_example | propext, Classical.choice, Quot.sound |
