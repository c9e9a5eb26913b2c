{
 "claims": [
  {
   "property": "C01",
   "status": "proved",
   "theorems": [
    "CC.C01_quote_in_context",
    "CC.C01_quote_roundtrip",
    "CC.C01_quote_concat",
    "CC.C01_quote_empty_flag",
    "CC.C01_quote_injective"
   ],
   "note": "All strings, against an independent POSIX word reader that fails on any unquoted special character."
  },
  {
   "property": "C02",
   "status": "proved",
   "theorems": [
    "CC.C02_join_quoted_roundtrip"
   ],
   "note": "All argument lists."
  },
  {
   "property": "C03",
   "status": "partial",
   "theorems": [
    "CC.C03_fish_quote_in_context_partial",
    "CC.C03_fish_join_quoted_partial",
    "CC.C03_backslash_false",
    "CC.C03_trailing_backslash_false",
    "CC.C03_backquote_false"
   ],
   "note": "False as stated: Fish treats backslashes in single quotes and backquotes in double quotes differently (witnesses). Proved for every string without those combinations."
  },
  {
   "property": "C04",
   "status": "proved",
   "theorems": [
    "CC.C04_make_identifier_valid",
    "CC.C04_make_identifier_empty",
    "CC.C04_no_double_underscore",
    "CC.C04_letters_survive",
    "CC.C04_make_identifier_idempotent"
   ],
   "note": "All strings."
  },
  {
   "property": "C05",
   "status": "partial",
   "theorems": [
    "CC.C05_condition_command_expand_partial",
    "CC.C05_condition_command_args_partial",
    "CC.C05_backquote_false"
   ],
   "note": "False for backquotes (witness). Proved for argument lists whose quoted text contains no backquote."
  },
  {
   "property": "C06",
   "status": "proved",
   "theorems": [
    "CC.C06_lex_render",
    "CC.C06_parse_render",
    "CC.C06_one_command"
   ],
   "note": "All token sequences and all boolean expressions over non-empty commands."
  },
  {
   "property": "C07",
   "status": "partial",
   "theorems": [
    "CC.C07_check_exact_partial",
    "CC.C07_complete",
    "CC.C07_unambiguous",
    "CC.C07_false",
    "CC.C07_lone_bang_accepted",
    "CC.C07_juxtaposition_accepted",
    "CC.C07_commands_nonempty_partial"
   ],
   "note": "Every boolean expression is accepted (full). The converse is false: trailing operators, a lone ! and a command after a closing parenthesis are accepted (witnesses). Exact characterisation proved for token lists without these shapes."
  },
  {
   "property": "C08",
   "status": "partial",
   "theorems": [
    "CC.C08_bash_partial",
    "CC.C08_zsh_partial",
    "CC.C08_zsh_total",
    "CC.C08_bash_total",
    "CC.C08_positional_zero_false",
    "CC.C08_empty_value_false",
    "CC.C08_shells_disagree",
    "CC.C08_bash_text_partial",
    "CC.C08_zsh_text_partial"
   ],
   "note": "Proved for all expressions and surrounding conditions; primitive positional_contains restricted to numbers from 1 and non-empty values (witnesses show why). Bash and Zsh give option_is with several options different meanings (witness)."
  },
  {
   "property": "C09",
   "status": "partial",
   "theorems": [
    "CC.C09_reorder_perm",
    "CC.C09_reorder_stable",
    "CC.C09_fish_offers_partial",
    "CC.C09_fish_offers_no_when",
    "CC.C09_repeated_value_false"
   ],
   "note": "Proved for all expressions and condition lists; positional_contains restricted to numbers from 1 and values listed once (witness)."
  },
  {
   "property": "C10",
   "status": "proved",
   "theorems": [
    "CC.C10_option_is",
    "CC.C10_option_match",
    "CC.C10_has_option",
    "CC.C10_positional_count",
    "CC.C10_positional_contains",
    "CC.C10_commands"
   ],
   "note": "Exact accepted shape of every primitive condition."
  },
  {
   "property": "C11",
   "status": "partial",
   "theorems": [
    "CC.C11_exact_partial",
    "CC.C11_single_digits",
    "CC.C11_example",
    "CC.C11_numbers",
    "CC.C11_special_character",
    "CC.C11_quoted_names"
   ],
   "note": "Proved for names of characters without a meaning in patterns when no two siblings in the prefix tree are one-character digits next to a longer number. Multi-digit runs, glob characters and quoted names are wrong in the code (witnesses)."
  },
  {
   "property": "C12",
   "status": "partial",
   "theorems": [
    "CC.C12_bash_partial",
    "CC.C12_bash_special_character",
    "CC.C12_fish_partial",
    "CC.C12_fish_special_character",
    "CC.C12_example"
   ],
   "note": "Proved for Bash and Fish for ASCII extensions of characters without a meaning of their own (Fish: also . and +). Other special characters are not escaped by the code (witnesses)."
  },
  {
   "property": "C13",
   "status": "partial",
   "theorems": [
    "CC.C13_regex_partial",
    "CC.C13_example",
    "CC.C13_backslash",
    "CC.C13_caret",
    "CC.C13_caret_inside",
    "CC.C13_negated_parenthesis",
    "CC.C13_quoted_dash",
    "CC.C13_dollar",
    "CC.C13_crash"
   ],
   "note": "Proved for every text Bash reads as a glob (Spec/Glob.lean with the context bashGlob) and the converter accepts: the regular expression can be read and matches the same words without newlines. Excluded because false there (theorems with witnesses): backslashes, carets, [!(, a literal $, a quoted - in brackets. Unordered ranges are excluded too. A leading ! or a stray ] ends with AttributeError instead of ValueError (C13_crash)."
  },
  {
   "property": "C14",
   "status": "partial",
   "theorems": [
    "CC.C14_zsh_partial",
    "CC.C14_example",
    "CC.C14_parenthesis",
    "CC.C14_quote_in_brackets"
   ],
   "note": "Proved for every text Bash reads as a glob and the converter accepts: Zsh reads the result as the same abstract pattern. Excluded because false there: quoted parentheses, bars and Zsh operators, quotes or blanks in brackets, backslashes, carets, [!(, quoted - in brackets."
  },
  {
   "property": "C15",
   "status": "proved",
   "theorems": [
    "CC.C15_exactly_one",
    "CC.C15_getters",
    "CC.C15_accepted"
   ],
   "note": "All strings and all accepted options."
  },
  {
   "property": "C16",
   "status": "proved",
   "theorems": [
    "CC.C16_key",
    "CC.C16_nearest",
    "CC.C16_mem",
    "CC.C16_own",
    "CC.C16_together"
   ],
   "note": "All command trees, all commands in them, both flags."
  },
  {
   "property": "C17",
   "status": "proved",
   "theorems": [
    "CC.C17_conflicts",
    "CC.C17_symmetric",
    "CC.C17_not_added"
   ],
   "note": "All options of all commands, up to equality of options. An option never added to its command makes the call fail (witness)."
  },
  {
   "property": "C18",
   "status": "proved",
   "theorems": [
    "CC.C18_absolute",
    "CC.C18_levels",
    "CC.C18_no_overlap",
    "CC.C18_add_subcommands",
    "CC.C18_added_later_false"
   ],
   "note": "All trees and all paths, for commands whose slot was numbered after their positionals; add_subcommands establishes this; adding a positional afterwards breaks it (witness) until the command is copied."
  },
  {
   "property": "C19",
   "status": "proved",
   "theorems": [
    "CC.C19_traversal",
    "CC.C19_order",
    "CC.C19_paths_distinct",
    "CC.C19_path_strings",
    "CC.C19_places"
   ],
   "note": "All trees, by addresses; paths as strings differ if names contain no blank."
  },
  {
   "property": "C20",
   "status": "proved",
   "theorems": [
    "CC.C20_copy",
    "CC.C20_identical",
    "CC.C20_well_numbered",
    "CC.C20_unique_names",
    "CC.C20_example"
   ],
   "note": "All trees built by any history of API calls, including calls on commands already inside a tree."
  },
  {
   "property": "C21",
   "status": "proved",
   "theorems": [
    "CC.C21_same_tree",
    "CC.C21_commands",
    "CC.C21_options",
    "CC.C21_positionals",
    "CC.C21_nothing_inherited",
    "CC.C21_idempotent",
    "CC.C21_whens"
   ],
   "note": "All API-built trees and configurations."
  },
  {
   "property": "C22",
   "status": "proved",
   "theorems": [
    "CC.C22_history",
    "CC.C22_step",
    "CC.C22_lookup"
   ],
   "note": "All histories of additions."
  },
  {
   "property": "C23",
   "status": "proved",
   "theorems": [
    "CC.C23_fails_iff",
    "CC.C23_result",
    "CC.C23_order"
   ],
   "note": "All option lists and all lists of strings."
  },
  {
   "property": "C24",
   "status": "proved",
   "theorems": [
    "CC.C24_exactly",
    "CC.C24_longest_first",
    "CC.C24_unshared",
    "CC.C24_not_another_word",
    "CC.C24_min_length",
    "CC.C24_option_generator"
   ],
   "note": "All word lists."
  },
  {
   "property": "C25",
   "status": "partial",
   "theorems": [
    "CC.C25_false",
    "CC.C25_disjoint_partial",
    "CC.C25_no_abbreviation",
    "CC.C25_names_select"
   ],
   "note": "False if an alias of one subcommand equals an abbreviation of another (witness). Proved for all sets of subcommands whose aliases do not clash with abbreviations."
  },
  {
   "property": "C26",
   "status": "partial",
   "theorems": [
    "CC.C26_round_trip_partial",
    "CC.C26_identical",
    "CC.C26_example",
    "CC.C26_empty_completer_lost",
    "CC.C26_empty_subcommands_lost",
    "CC.C26_space_in_name"
   ],
   "note": "All API-built trees of any size whose names are words, without an empty completer list or an empty subcommands object; what those cases lose is shown by witnesses."
  },
  {
   "property": "C27",
   "status": "proved",
   "theorems": [
    "CC.C27_accepted_iff",
    "CC.C27_tree",
    "CC.C27_example",
    "CC.C27_rejected"
   ],
   "note": "All lists of documents: exact acceptance condition and full content of the tree."
  },
  {
   "property": "C28",
   "status": "proved",
   "theorems": [
    "CC.C28_everywhere",
    "CC.C28_none_left",
    "CC.C28_one_pass",
    "CC.C28_unchanged",
    "CC.C28_no_defines",
    "CC.C28_documents",
    "CC.C28_example",
    "CC.C28_replaces_names"
   ],
   "note": "All documents and define tables (dictionary_source.py; yaml_source.py has the same algorithm on traced values). Names are replaced everywhere, also in prog (witness), and only once (witness)."
  },
  {
   "property": "C29",
   "status": "proved",
   "theorems": [
    "CC.C29_documents",
    "CC.C29_deref_unique",
    "CC.C29_different_keys",
    "CC.C29_alias",
    "CC.C29_complex_key",
    "CC.C29_scalar_documents",
    "CC.C29_scalars",
    "CC.C29_example"
   ],
   "note": "All streams of documents whose root is a mapping or sequence, with scalar keys, any nesting; the heap of shared containers is modelled. Bare scalar documents are dropped (witness)."
  },
  {
   "property": "C30",
   "status": "proved",
   "theorems": [
    "CC.C30_fix_option",
    "CC.C30_non_dict",
    "CC.C30_fix_commandline",
    "CC.C30_fix_commandlines",
    "CC.C30_idempotent"
   ],
   "note": "All values."
  },
  {
   "property": "C31",
   "status": "proved",
   "theorems": [
    "CC.C31_seq",
    "CC.C31_brace",
    "CC.C31_validated",
    "CC.C31_empty_range_false"
   ],
   "note": "All ranges; an empty range under brace expansion is a witness for the difference."
  },
  {
   "property": "C32",
   "status": "proved",
   "theorems": [
    "CC.C32_options",
    "CC.C32_option_strings",
    "CC.C32_positionals",
    "CC.C32_command",
    "CC.C32_subcommands",
    "CC.C32_exclusive",
    "CC.C32_accepted_iff",
    "CC.C32_subcommand_last",
    "CC.C32_positional_after_subparsers",
    "CC.C32_example",
    "CC.C32_example_supported",
    "CC.C32_example_groups",
    "CC.C32_example_exclusive"
   ],
   "note": "For every parser that is converted: options, positionals, numbers, groups and subcommands; and exactly which parsers are converted. A positional added after the subparsers gets the number of the subcommand word (C32_positional_after_subparsers)."
  },
  {
   "property": "C33",
   "status": "partial",
   "theorems": [
    "CC.C33_accepted_partial",
    "CC.C33_numbers",
    "CC.C33_false"
   ],
   "note": "Proved for the program and its direct subcommands in every accepted list. Commands below are not checked by the code (C33_false)."
  },
  {
   "property": "C34",
   "status": "partial",
   "theorems": [
    "CC.C34_accepted_partial",
    "CC.C34_accepts_partial",
    "CC.C34_false"
   ],
   "note": "Both directions over all lists of documents; definitions below the direct subcommands are not checked by the code (C34_false)."
  },
  {
   "property": "C35",
   "status": "partial",
   "theorems": [
    "CC.C35_sound",
    "CC.C35_exact_partial",
    "CC.C35_definitions",
    "CC.C35_range",
    "CC.C35_known",
    "CC.C35_none_after_prefix",
    "CC.C35_command_arg_in_combine"
   ],
   "note": "Soundness for all completers at any depth; completeness for all completers without none and command_arg, whose place is checked with a stale trace (C35_none_after_prefix, C35_command_arg_in_combine)."
  },
  {
   "property": "C36",
   "status": "proved",
   "theorems": [
    "CC.C36_preprocess",
    "CC.C36_no_directives",
    "CC.C36_output_lines",
    "CC.C36_crash"
   ],
   "note": "All texts and tag sets."
  },
  {
   "property": "C37",
   "status": "proved",
   "theorems": [
    "CC.C37_indent_lines",
    "CC.C37_indent_indent",
    "CC.C37_indent_zero"
   ],
   "note": "All texts and widths."
  },
  {
   "property": "C38",
   "status": "proved",
   "theorems": [
    "CC.C38_join_with_wrap",
    "CC.C38_line_lengths"
   ],
   "note": "All item lists, separators, prefixes and widths."
  },
  {
   "property": "C39",
   "status": "proved",
   "theorems": [
    "CC.C39_strip_comments",
    "CC.C39_strip_comments_idempotent",
    "CC.C39_strip_double_empty_lines",
    "CC.C39_not_idempotent"
   ],
   "note": "All texts; that the blank-line pass is not idempotent is recorded as a witness."
  },
  {
   "property": "C40",
   "status": "proved",
   "theorems": [
    "CC.C40_uniq_mem",
    "CC.C40_uniq_nodup",
    "CC.C40_uniq_order",
    "CC.C40_partition",
    "CC.C40_flatten",
    "CC.C40_group_by_keys",
    "CC.C40_group_by_groups",
    "CC.C40_numbers_are_contiguous"
   ],
   "note": "All lists and key functions."
  },
  {
   "property": "C41",
   "status": "proved",
   "theorems": [
    "CC.C41_length",
    "CC.C41_get",
    "CC.C41_insert_past_end"
   ],
   "note": "All histories of operations."
  },
  {
   "property": "C42",
   "status": "proved",
   "theorems": [
    "CC.C42_search",
    "CC.C42_names",
    "CC.C42_example",
    "CC.C42_positional_names",
    "CC.C42_helper_clash"
   ],
   "note": "For every sequence of calls; C42_helper_clash shows that dynamic names are not compared with the names of built-in helpers."
  },
  {
   "property": "C43",
   "status": "proved",
   "theorems": [
    "CC.C43_closure",
    "CC.C43_unknown",
    "CC.C43_later_additions",
    "CC.C43_repositories",
    "CC.C43_circle",
    "CC.C43_example"
   ],
   "note": "For every sound repository and call sequence; the repositories of the three shells are sound (C43_repositories)."
  },
  {
   "property": "C44",
   "status": "partial",
   "theorems": [
    "CC.C44_distinct_partial",
    "CC.C44_collision",
    "CC.C44_example"
   ],
   "note": "Proved for subcommand names of ASCII letters and digits. False for names with hyphens or underscores (C44_collision)."
  },
  {
   "property": "C45",
   "status": "partial",
   "theorems": [
    "CC.C45_agree_partial",
    "CC.C45_unknown_long",
    "CC.C45_flag_value",
    "CC.C45_short_equals",
    "CC.C45_inherited_flag",
    "CC.C45_positionals"
   ],
   "note": "Proved for every clean tree and every line in the documented forms. False on other lines: unknown long options, values given to flags, -o=x, a flag letter inherited twice, and positionals of a program that has none (witnesses C45_*)."
  },
  {
   "property": "C46",
   "status": "partial",
   "theorems": [
    "CC.C46_v1_partial",
    "CC.C46_v2_partial",
    "CC.C46_name_prefix",
    "CC.C46_example"
   ],
   "note": "Proved for both parsers, every clean tree and every line in the documented forms with aliases and abbreviations. False if the name of a command that passes its options on is the beginning of the name of a sibling (C46_name_prefix)."
  },
  {
   "property": "C47",
   "status": "partial",
   "theorems": [
    "CC.C47_offered_partial",
    "CC.C47_readable",
    "CC.C47_unreadable",
    "CC.C47_typed_partial",
    "CC.C47_example",
    "CC.C47_example_hypotheses"
   ],
   "note": "Proved for every command, every set of given options and every word at the cursor, and from the words typed for every clean tree; conditions on `when` as for C08. A command with only hidden options below a final option gives an unreadable script (C47_unreadable)."
  },
  {
   "property": "C48",
   "status": "partial",
   "theorems": [
    "CC.C48_name",
    "CC.C48_valid",
    "CC.C48_distinct_partial",
    "CC.C48_collisions",
    "CC.C48_invalid",
    "CC.C48_not_offered",
    "CC.C48_example"
   ],
   "note": "When a name is an identifier is characterised exactly; names differ for options named by letters, digits and single hyphens. False otherwise (C48_collisions, C48_invalid, C48_not_offered)."
  },
  {
   "property": "C49",
   "status": "partial",
   "theorems": [
    "CC.C49_fish_partial",
    "CC.C49_ambiguous",
    "CC.C49_zsh_partial"
   ],
   "note": "Reading the table back is proved for Zsh and Fish for option strings without `=`. A valid option string such as `--foo=` is ambiguous (C49_ambiguous)."
  },
  {
   "property": "C50",
   "status": "partial",
   "theorems": [
    "CC.C50_command",
    "CC.C50_fails",
    "CC.C50_rejects",
    "CC.C50_exclusive",
    "CC.C50_get_again",
    "CC.C50_read_partial",
    "CC.C50_example",
    "CC.C50_example_hypotheses"
   ],
   "note": "The text is characterised for every sequence of builder calls. That Fish reads it back as the words is proved for quoted strings inside the domain of C03; raw strings are passed through unchecked. Positions for insert_condition are not negative."
  },
  {
   "property": "C51",
   "status": "proved",
   "theorems": [
    "CC.C51_variables",
    "CC.C51_equal",
    "CC.C51_stable",
    "CC.C51_example"
   ],
   "note": "Every sequence of additions."
  },
  {
   "property": "C52",
   "status": "partial",
   "theorems": [
    "CC.C52_description_partial",
    "CC.C52_metavar_partial",
    "CC.C52_false",
    "CC.C52_example"
   ],
   "note": "The texts that are read back are characterised exactly (iff) for descriptions and for metavars. False for other texts with backslashes (C52_false)."
  },
  {
   "property": "C53",
   "status": "partial",
   "theorems": [
    "CC.C53_spec_partial",
    "CC.C53_option_partial",
    "CC.C53_example",
    "CC.C53_example_hypotheses",
    "CC.C53_empty_metavar",
    "CC.C53_dash_suffix",
    "CC.C53_positional_partial",
    "CC.C53_positional_example"
   ],
   "note": "Proved for option strings of letters, digits, dashes, underscores and dots, texts inside the domains of C52 and C59, and every combination of the other attributes; also for positionals. False for an empty metavar (C53_empty_metavar) and for option strings ending in a dash (C53_dash_suffix)."
  },
  {
   "property": "C54",
   "status": "partial",
   "theorems": [
    "CC.C54_no_newline",
    "CC.C54_unclosed",
    "CC.C54_example",
    "CC.C54_covers",
    "CC.C54_crash_only",
    "CC.C54_total_partial"
   ],
   "note": "Coverage and termination for every text; a crash happens only when the text ends with an option, its metavar and blanks (C54_crash_only), so not for texts that end in a newline with all brackets and quotes closed (C54_total_partial). False otherwise: C54_no_newline, C54_unclosed."
  },
  {
   "property": "C55",
   "status": "proved",
   "theorems": [
    "CC.C55_output",
    "CC.C55_pieces_present"
   ],
   "note": "All histories of operations."
  },
  {
   "property": "C56",
   "status": "partial",
   "theorems": [
    "CC.C56_dependencies_renamed_partial",
    "CC.C56_example",
    "CC.C56_hyphen"
   ],
   "note": "Proved for prefixes of word characters. False for prefixes with hyphens (C56_hyphen)."
  },
  {
   "property": "C57",
   "status": "partial",
   "theorems": [
    "CC.C57_parse_partial",
    "CC.C57_quoted_after_dashes",
    "CC.C57_example"
   ],
   "note": "Proved for every option list (strings without `=`), every sequence of items and every ending; words after `--` must not be quoted (C57_quoted_after_dashes)."
  },
  {
   "property": "C58",
   "status": "partial",
   "theorems": [
    "CC.C58_parse",
    "CC.C58_single_command",
    "CC.C58_lookup_partial",
    "CC.C58_global_option_lost",
    "CC.C58_example"
   ],
   "note": "Parsing is proved for every list of definitions; which options are known is proved for every clean tree. False for options of the program after the first positional if there are subcommands (C58_global_option_lost)."
  },
  {
   "property": "C59",
   "status": "partial",
   "theorems": [
    "CC.C59_action_partial",
    "CC.C59_false",
    "CC.C59_example",
    "CC.C59_quoted_partial"
   ],
   "note": "Proved for texts without a backslash outside single quotes, thus for quoted actions unless they have a single quote, no double quote and one of dollar, backtick, backslash. False there (C59_false)."
  },
  {
   "property": "C60",
   "status": "partial",
   "theorems": [
    "CC.C60_validate_partial",
    "CC.C60_when",
    "CC.C60_completer",
    "CC.C60_example",
    "CC.C60_prog",
    "CC.C60_option_string",
    "CC.C60_positional",
    "CC.C60_command_arg_empty",
    "CC.C60_command_arg_number"
   ],
   "note": "Proved for every list of documents whose names are strings, whose option strings are not one string and whose positionals are dictionaries that command_arg can look at; everything else may have any type. False otherwise: C60_prog, C60_option_string, C60_positional, C60_command_arg_empty, C60_command_arg_number. The conversion of globs is a parameter that accepts or rejects; in the code it can also fail with AttributeError (C13_crash)."
  },
  {
   "property": "C61",
   "status": "partial",
   "theorems": [
    "CC.C61_loads_partial",
    "CC.C61_null",
    "CC.C61_name",
    "CC.C61_deep"
   ],
   "note": "Proved for all documents with direct subcommands only, blanks as the only white space in names, and no null where the import wants a value. False otherwise (C61_null, C61_name, C61_deep)."
  },
  {
   "property": "C62",
   "status": "proved",
   "theorems": [
    "CC.C62_layout",
    "CC.C62_example"
   ],
   "note": "For every text in the layout of Spec/HelpText.lean."
  },
  {
   "property": "C63",
   "status": "partial",
   "theorems": [
    "CC.C63_bash_partial",
    "CC.C63_bash_empty",
    "CC.C63_bash_example",
    "CC.C63_zsh_inline_partial",
    "CC.C63_zsh_strings",
    "CC.C63_zsh_integer",
    "CC.C63_zsh_list_function_partial",
    "CC.C63_zsh_table_function_partial",
    "CC.C63_zsh_backslash",
    "CC.C63_fish_inline_partial",
    "CC.C63_fish_code_partial",
    "CC.C63_fish_partial",
    "CC.C63_fish_example",
    "CC.C63_fish_same_text",
    "CC.C63_zsh_option_partial",
    "CC.C63_zsh_option_example"
   ],
   "note": "Bash: all choices that are not empty (C63_bash_empty: an empty one is lost). Zsh: lists in place without restriction; tables in place and functions for texts without backslashes (C63_zsh_backslash), functions for lists of strings without newlines; a long list with an integer makes the generation fail (C63_zsh_integer, C63_zsh_strings). Fish: texts that Fish and POSIX quote alike, without tabs and newlines; a number and a string of the same text collide (C63_fish_same_text). C63_zsh_option_partial goes from an option to what its spec offers."
  },
  {
   "property": "C64",
   "status": "partial",
   "theorems": [
    "CC.C64_types",
    "CC.C64_zsh_partial",
    "CC.C64_fish_partial",
    "CC.C64_fish_short_equals",
    "CC.C64_zsh_equals",
    "CC.C64_example"
   ],
   "note": "Kinds of options without restriction; Zsh for option strings without `=` (false otherwise: C64_zsh_equals); Fish also for words without `=` after a one-letter option (false otherwise: C64_fish_short_equals, the value read from -o=x depends on whether some other option is old-style)."
  },
  {
   "property": "C65",
   "status": "partial",
   "theorems": [
    "CC.C65_script_partial",
    "CC.C65_again_partial",
    "CC.C65_left",
    "CC.C65_shared_define",
    "CC.C65_second_script",
    "CC.C65_example"
   ],
   "note": "Exactly when it holds: every dictionary that is used twice, or was used for an earlier script, says nothing but the defaults. False otherwise: C65_shared_define, C65_second_script. C65_left says what is left of the command line."
  },
  {
   "property": "C66",
   "status": "partial",
   "theorems": [
    "CC.C66_next_partial",
    "CC.C66_equals_partial",
    "CC.C66_attached_partial",
    "CC.C66_inherited_partial",
    "CC.C66_quiet",
    "CC.C66_only_optional",
    "CC.C66_old_flag",
    "CC.C66_after_dashes",
    "CC.C66_value_like_option",
    "CC.C66_inherited_lost",
    "CC.C66_inherited_dash",
    "CC.C66_inherited_letter",
    "CC.C66_no_function",
    "CC.C66_example"
   ],
   "note": "For options of the command the line leads to, in the next word, after = and attached to a letter; for options of ancestors if the nearer commands have nothing at the place. False otherwise: C66_only_optional (if all arguments are optional nothing is ever completed), C66_old_flag, C66_after_dashes, C66_value_like_option, C66_inherited_lost, C66_inherited_dash, C66_inherited_letter, C66_no_function."
  },
  {
   "property": "C67",
   "status": "partial",
   "theorems": [
    "CC.C67_positional_partial",
    "CC.C67_subcommands_partial",
    "CC.C67_nothing_partial",
    "CC.C67_name_complete",
    "CC.C67_name_begun",
    "CC.C67_words_after",
    "CC.C67_command_twice",
    "CC.C67_example"
   ],
   "note": "For words that do not begin with - after words that do not ask for an argument (C66_quiet says after which items). False otherwise: C67_name_complete (prog run<TAB> does not offer runner), C67_words_after, C67_command_twice."
  },
  {
   "property": "C68",
   "status": "partial",
   "theorems": [
    "CC.C68_active",
    "CC.C68_option_partial",
    "CC.C68_offered_partial",
    "CC.C68_typed_partial",
    "CC.C68_before_positional",
    "CC.C68_sibling_argument",
    "CC.C68_alias_twice",
    "CC.C68_three_dashes",
    "CC.C68_final_below",
    "CC.C68_argument_lost",
    "CC.C68_example"
   ],
   "note": "For trees as in CleanFish, options as Fish knows them (C58) and `when` conditions as in C09. False otherwise: C68_before_positional (options of a program with positionals and subcommands are not offered before the positionals), C68_sibling_argument (a command argument of one subcommand hides inherited options in others), C68_alias_twice, C68_three_dashes, C68_final_below, C68_argument_lost. C68_active gives the exact conditions of each complete command."
  },
  {
   "property": "C69",
   "status": "partial",
   "theorems": [
    "CC.C69_positional_partial",
    "CC.C69_subcommands_partial",
    "CC.C69_subcommands_lead",
    "CC.C69_repeatable_before_subcommand"
   ],
   "note": "For trees as in CleanFish without repeatable positionals before subcommands (false otherwise: C69_repeatable_before_subcommand)."
  },
  {
   "property": "C70",
   "status": "partial",
   "theorems": [
    "CC.C70_dispatch_partial",
    "CC.C70_kind_changes",
    "CC.C70_not_parsed",
    "CC.C70_cursor_counts",
    "CC.C70_example"
   ],
   "note": "For trees without ambiguous subcommand words, lines whose items are valid for each command on the way, and functions that parse the line. False otherwise: C70_kind_changes (a flag of a subcommand with the name of an option with argument of its parent), C70_not_parsed (a function whose conditions are only on positionals does not parse the line), C70_cursor_counts (the empty word at the cursor counts as a positional)."
  },
  {
   "property": "C71",
   "status": "partial",
   "theorems": [
    "CC.C71_offers_partial",
    "CC.C71_may_be_given_partial",
    "CC.C71_child_inherits",
    "CC.C71_false_condition",
    "CC.C71_final_of_parent"
   ],
   "note": "C71_offers_partial gives exactly the options passed to _arguments and which it rules out; C71_may_be_given_partial compares with the intended options under ZshAgrees. False otherwise: C71_child_inherits (inherit_options of the subcommand decides, not of its parents), C71_false_condition, C71_final_of_parent. The behaviour of _arguments itself is specified in Spec/ZshScriptSpec.lean from its documentation."
  },
  {
   "property": "C72",
   "status": "partial",
   "theorems": [
    "CC.C72_positionals_partial",
    "CC.C72_star_early",
    "CC.C72_two_stars"
   ],
   "note": "For lines without final options and one repeatable positional whose place has come. False otherwise: C72_star_early, C72_two_stars."
  },
  {
   "property": "C73",
   "status": "partial",
   "theorems": [
    "CC.C73_enhance_partial",
    "CC.C73_shallow_partial",
    "CC.C73_hidden",
    "CC.C73_deep_when",
    "CC.C73_name"
   ],
   "note": "C73_enhance_partial gives the exact condition for names whose only white space are blanks. False otherwise: C73_hidden (a hidden option is rejected if the configuration makes options repeatable), C73_deep_when (conditions below the direct subcommands are not validated), C73_name (a no-break space in a name)."
  },
  {
   "property": "C74",
   "status": "partial",
   "theorems": [
    "CC.C74_checked_partial",
    "CC.C74_accepts_partial",
    "CC.C74_deep",
    "CC.C74_blank_name"
   ],
   "note": "For the program and its direct subcommands, names without blanks; the converse for completers that do not use none or command_arg inside. False otherwise: C74_deep (commands below are not looked at), C74_blank_name (a subcommand with a blank in its name escapes)."
  },
  {
   "property": "C75",
   "status": "partial",
   "theorems": [
    "CC.C75_round_trip_partial",
    "CC.C75_load_exported_partial",
    "CC.C75_text_injective_partial",
    "CC.C75_example",
    "CC.C75_example_text",
    "CC.C75_emoji_lost",
    "CC.C75_float_becomes_text",
    "CC.C75_number_key_becomes_text"
   ],
   "note": "For texts of characters below U+10000, floats written with a point and dictionary keys that are strings of limited length. False otherwise: C75_emoji_lost, C75_float_becomes_text, C75_number_key_becomes_text."
  },
  {
   "property": "C76",
   "status": "partial",
   "theorems": [
    "CC.C76_definition_partial",
    "CC.C76_usage_name",
    "CC.C76_first_word",
    "CC.C76_name_total",
    "CC.C76_text_partial",
    "CC.C76_layout_partial",
    "CC.C76_completers",
    "CC.C76_example",
    "CC.C76_two_brackets",
    "CC.C76_escape",
    "CC.C76_separator",
    "CC.C76_quote",
    "CC.C76_emoji",
    "CC.C76_blank"
   ],
   "note": "Proved for texts whose characters are printable, below U+10000 and without unusual line separators, and names without quotes and backslashes; each of these conditions is shown to be needed by a witness. A metavar like <key>=<value> loses its outer brackets (C76_two_brackets)."
  },
  {
   "property": "C77",
   "status": "partial",
   "theorems": [
    "CC.C77_document_partial",
    "CC.C77_text_partial",
    "CC.C77_layout_partial",
    "CC.C77_example",
    "CC.C77_cmd",
    "CC.C77_no_options",
    "CC.C77_no_break_space"
   ],
   "note": "Proved for texts with at least one option, no unusual white space, and without the letters cmd in a row. The completer cmd that is written for the argument CMD does not exist (C77_cmd), a help text without options gives `options: null`, which the import rejects (C77_no_options)."
  },
  {
   "property": "C78",
   "status": "partial",
   "theorems": [
    "CC.C78_bash_code_partial",
    "CC.C78_bash_function_partial",
    "CC.C78_login_shell",
    "CC.C78_example"
   ],
   "note": "For prefixes of safe characters, separators of one character (as the validator asks), readable code in exec_internal, and without login_shell and filesystem_type with bash-completion 2.12, where the code calls a command that does not exist (C78_login_shell). What the called helper functions do is not part of this property; running the code in sequence is C79."
  },
  {
   "property": "C79",
   "status": "partial",
   "theorems": [
    "CC.C79_combine_partial",
    "CC.C79_example",
    "CC.C79_lost",
    "CC.C79_leak",
    "CC.C79_path",
    "CC.C79_cur",
    "CC.C79_prefix"
   ],
   "note": "For parts that are not own code (exec_internal), do not change PATH, are not prefix, file_list or directory_list, and lists only of completers that replace the earlier results. Without these conditions it is false: C79_lost, C79_leak, C79_path, C79_cur, C79_prefix."
  },
  {
   "property": "C80",
   "status": "partial",
   "theorems": [
    "CC.C80_dequote_partial",
    "CC.C80_quote",
    "CC.C80_example",
    "CC.C80_backslash",
    "CC.C80_newline"
   ],
   "note": "For words without a backslash at the end of a line and, in double quotes, backslashes only where they quote something; false otherwise: C80_backslash, C80_newline. The round trip with the generator's own quoting (C80_quote) has no hypotheses."
  },
  {
   "property": "C81",
   "status": "partial",
   "theorems": [
    "CC.C81_prefix_partial",
    "CC.C81_offered",
    "CC.C81_example",
    "CC.C81_empty",
    "CC.C81_echo",
    "CC.C81_break"
   ],
   "note": "For words of one line as in C80, a prefix that is not empty, words that are no options of echo and no break character inside of the prefix. False otherwise: C81_empty, C81_echo, C81_break."
  },
  {
   "property": "C82",
   "status": "partial",
   "theorems": [
    "CC.C82_value_list_partial",
    "CC.C82_example",
    "CC.C82_hidden",
    "CC.C82_break",
    "CC.C82_blank",
    "CC.C82_newline"
   ],
   "note": "For words of one line as in C80 and no unquoted break character in the current item; with a blank as the separator no value may be empty. False otherwise: C82_break, C82_blank, C82_newline. C82_hidden shows a consequence of the rule itself."
  },
  {
   "property": "C83",
   "status": "partial",
   "theorems": [
    "CC.C83_words_partial",
    "CC.C83_quotes",
    "CC.C83_overlap",
    "CC.C83_line_partial",
    "CC.C83_example",
    "CC.C83_printf",
    "CC.C83_blank"
   ],
   "note": "For lines without quotes inside, offers that start with the current word and a first offer without blanks. Quotes in the line are ignored (C83_quotes), a blank can lose words (C83_blank)."
  },
  {
   "property": "C84",
   "status": "partial",
   "theorems": [
    "CC.C84_key_value_list_partial",
    "CC.C84_key_value_pair_partial",
    "CC.C84_example",
    "CC.C84_blank_key",
    "CC.C84_value_break",
    "CC.C84_current_excludes",
    "CC.C84_star",
    "CC.C84_option_key"
   ],
   "note": "For words typed without quoting or as a whole in quotes, without break characters other than the separators and none in the value; keys are different, not empty and without blanks. False otherwise: C84_blank_key, C84_value_break, C84_option_key. C84_star: an excluded repeatable key is not excluded. C84_current_excludes: the pair being typed excludes too."
  },
  {
   "property": "C85",
   "status": "partial",
   "theorems": [
    "CC.C85_zsh_action_partial",
    "CC.C85_zsh_function_partial",
    "CC.C85_service",
    "CC.C85_blank_key",
    "CC.C85_colon_key",
    "CC.C85_colon_value",
    "CC.C85_starred_value",
    "CC.C85_list_of_none",
    "CC.C85_list_of_code",
    "CC.C85_list_of_integers",
    "CC.C85_newline_combined",
    "CC.C85_backslash_action",
    "CC.C85_equals",
    "CC.C85_example"
   ],
   "note": "Under Fits: words do not begin with '=', keys are plain, values have no colon and no leading star or parenthesis, texts in combinations have no newline, texts in actions of keys no backslash. False otherwise: C85_service, C85_blank_key, C85_colon_key, C85_colon_value, C85_starred_value, C85_list_of_none, C85_list_of_code, C85_list_of_integers, C85_newline_combined, C85_backslash_action, C85_equals. The bodies of the helper functions and of Zsh's own functions are not modelled."
  },
  {
   "property": "C86",
   "status": "partial",
   "theorems": [
    "CC.C86_fish_args_partial",
    "CC.C86_fish_function_partial",
    "CC.C86_date",
    "CC.C86_pair_condition",
    "CC.C86_prefix_directory",
    "CC.C86_order",
    "CC.C86_no_choices",
    "CC.C86_backslash",
    "CC.C86_example"
   ],
   "note": "Under Fits: texts that Fish reads as they are quoted (C03), choices that are not empty and have different texts, extensions of letters, digits and . + _ -, no condition on a key_value_pair, no plain directory behind a prefix, no date. False otherwise: C86_date, C86_pair_condition, C86_prefix_directory, C86_order, C86_no_choices, C86_backslash. The bodies of the helper functions and of Fish's own functions are not modelled."
  },
  {
   "property": "C87",
   "status": "partial",
   "theorems": [
    "CC.C87_script_partial",
    "CC.C87_condition_calls",
    "CC.C87_offered_partial",
    "CC.C87_alias_is_program",
    "CC.C87_quote_in_name",
    "CC.C87_alias_runs",
    "CC.C87_wraps_runs",
    "CC.C87_newline_runs",
    "CC.C87_example"
   ],
   "note": "Under Writable: texts that Fish reads as they are quoted (C03; in conditions also without backquote), program name without ', plain aliases that differ from the program, plain wraps, no line break in names of commands. False otherwise: C87_alias_is_program, C87_quote_in_name, C87_alias_runs, C87_wraps_runs, C87_newline_runs. C87_offered_partial also needs the hypotheses of C68. The arguments of the entries are given (C86 says what they do); the calls in the conditions are answered by the helper functions as modelled (C87_condition_calls), under the assumption that has_option with incomplete words agrees with the line; the code of the helper functions stands before the modelled part."
  },
  {
   "property": "C88",
   "status": "partial",
   "theorems": [
    "CC.C88_wrapper",
    "CC.C88_words_partial",
    "CC.C88_cursor_partial",
    "CC.C88_strip",
    "CC.C88_example",
    "CC.C88_double_dash",
    "CC.C88_own_argument",
    "CC.C88_own_option",
    "CC.C88_caret",
    "CC.C88_three_dashes"
   ],
   "note": "Under Writable: names without characters that mean something in a pattern, no name used for different kinds of options. False otherwise: C88_caret, C88_three_dashes. Words behind -- are not spared (C88_double_dash). With the cursor on an own option or its argument the wrapped command is called with the cursor on another word or on none (C88_own_argument, C88_own_option)."
  },
  {
   "property": "C89",
   "status": "partial",
   "theorems": [
    "CC.C89_argument",
    "CC.C89_value",
    "CC.C89_operand_partial",
    "CC.C89_example",
    "CC.C89_operand_cut",
    "CC.C89_dashes_cut",
    "CC.C89_short_equals"
   ],
   "note": "Proved for arguments in a word of their own and in the word of their option. For operands only if no letter from the second on is an option with an argument: otherwise false, C89_operand_cut (also behind --, C89_dashes_cut). C89_short_equals: -o=x means x while it is typed and =x afterwards."
  },
  {
   "property": "C90",
   "status": "partial",
   "theorems": [
    "CC.C90_sound",
    "CC.C90_complete_partial",
    "CC.C90_variable",
    "CC.C90_example",
    "CC.C90_typed",
    "CC.C90_deep",
    "CC.C90_deep_prefix",
    "CC.C90_star"
   ],
   "note": "C90_sound in full for completers nested at most two deep; C90_complete_partial except for the text typed already. False: a value typed completely is hidden (C90_typed), deeper nesting (C90_deep, C90_deep_prefix), the separator * (C90_star)."
  },
  {
   "property": "C91",
   "status": "partial",
   "theorems": [
    "CC.C91_list_sound",
    "CC.C91_list_complete_partial",
    "CC.C91_pair_partial",
    "CC.C91_example",
    "CC.C91_typed_key",
    "CC.C91_value_cut"
   ],
   "note": "Sound and complete except for the text typed already, for values without the separator or completers that do not look at it. False: a key typed completely is not completed (C91_typed_key), values with the separator (C91_value_cut)."
  },
  {
   "property": "C92",
   "status": "partial",
   "theorems": [
    "CC.C92_bash_partial",
    "CC.C92_bash_generated_name",
    "CC.C92_fish_partial",
    "CC.C92_zsh_partial",
    "CC.C92_zsh_with_newline",
    "CC.C92_zsh_n",
    "CC.C92_zsh_twice",
    "CC.C92_zsh_flag",
    "CC.C92_shared",
    "CC.C92_example"
   ],
   "note": "Bash: unless the variable's name begins with OPT_ (C92_bash_generated_name), an option without argument gives a mark. Fish: if no other option has the same variable (C92_shared). Zsh: only if the option was given at most once and its argument has none of the characters $, backslash and n; false otherwise (C92_zsh_n, C92_zsh_twice, C92_zsh_flag); C92_zsh_with_newline says what the intended separator would give."
  },
  {
   "property": "C93",
   "status": "partial",
   "theorems": [
    "CC.C93_runs_partial",
    "CC.C93_offers_partial",
    "CC.C93_example",
    "CC.C93_line_break",
    "CC.C93_esac",
    "CC.C93_equals",
    "CC.C93_not_always"
   ],
   "note": "Under OneLine: no captured option and no wraps, texts and names without line breaks, actions without a blank at the end, no subcommand named esac, no word beginning with =; conditions that are lists of commands (C07); the words typed do not end in a line break. False otherwise (C93_not_always): a help text on two lines is changed by the indentation (C93_line_break), a subcommand esac breaks the script (C93_esac), a subcommand =x is expanded by Zsh (C93_equals). The helper functions answer as modelled for C58 and C70; actions of completers are given (C85); the parts of the script before and after the functions are not modelled."
  },
  {
   "property": "C94",
   "status": "partial",
   "theorems": [
    "CC.C94_fish_sound",
    "CC.C94_fish_complete_partial",
    "CC.C94_fish_pair_partial",
    "CC.C94_bash_list_partial",
    "CC.C94_bash_pair_partial",
    "CC.C94_zsh_list_partial",
    "CC.C94_zsh_pair",
    "CC.C94_zsh_values",
    "CC.C94_example",
    "CC.C94_no_description",
    "CC.C94_zsh_star",
    "CC.C94_bash_eval",
    "CC.C94_fish_shift",
    "CC.C94_separator",
    "CC.C94_no_separator"
   ],
   "note": "Names of letters, digits, _, - and .; in Bash and Zsh a key that excludes others has a description, in Bash the typed text is as for C84. False otherwise: without a description Bash loses the excluded keys and Zsh shows them as the description (C94_no_description); Zsh calls the command with the star of a repeatable key (C94_zsh_star); Bash runs the typed text with eval (C94_bash_eval); a line without tab shifts the descriptions in Fish (C94_fish_shift); Bash and Fish offer = whatever the separator of the pair is (C94_separator); Bash does not append the separator to a key of a list (C94_no_separator). A key typed completely is not offered again by Fish (C91). How _values and _describe use the definitions is not modelled beyond reading them."
  },
  {
   "property": "C95",
   "status": "partial",
   "theorems": [
    "CC.C95_parser_partial",
    "CC.C95_determined",
    "CC.C95_tree_partial",
    "CC.C95_example",
    "CC.C95_environment",
    "CC.C95_esac",
    "CC.C95_local_variable",
    "CC.C95_semicolon",
    "CC.C95_v2_template",
    "CC.C95_v2_parser_partial",
    "CC.C95_v2_determined",
    "CC.C95_v2_tree_partial",
    "CC.C95_generated_partial",
    "CC.C95_shorter",
    "CC.C95_no_numbers",
    "CC.C95_v2_example",
    "CC.C95_v2_local_variable",
    "CC.C95_v2_single"
   ],
   "note": "Both versions of the parser and the choice between them; strings of characters without a meaning in Bash, variables other than those the parser uses, no references among the variables. False otherwise: a subcommand with only the other name esac (C95_esac) or an option with a semicolon (C95_semicolon) makes the text unreadable, an option captured in a variable named like a local one of the parser is never recorded (C95_local_variable; C95_v2_local_variable: VAR is recorded by version 1 and lost by version 2). With a single command and an empty list of subcommands version 2 finds options that the model does not (C95_v2_single)."
  },
  {
   "property": "C96",
   "status": "partial",
   "theorems": [
    "CC.C96_text_function",
    "CC.C96_name",
    "CC.C96_values_partial",
    "CC.C96_left",
    "CC.C96_alone_partial",
    "CC.C96_example",
    "CC.C96_cword"
   ],
   "note": "C96_left (nothing is left behind) is proved for all trees whose options have names of variables other than those of the parser, whatever the parser and the rest of the function do. C96_values_partial and C96_alone_partial have the hypotheses of C95. False otherwise: an option captured in cword takes the place of the cursor away from the parser (C96_cword). The definition of the parser function around its text and the rest of the completion function are not read."
  },
  {
   "property": "C97",
   "status": "partial",
   "theorems": [
    "CC.C97_wrapper_partial",
    "CC.C97_program_partial",
    "CC.C97_none",
    "CC.C97_transparent",
    "CC.C97_example",
    "CC.C97_pattern",
    "CC.C97_load"
   ],
   "note": "Names of programs that are ordinary words, names of wrapped commands without line break, & and backslash, and a program whose function is not named like that of bash-completion. False otherwise: the name by which the program was called is used as a pattern (C97_pattern), and the name of the wrapped command stands unquoted in the line that loads its completion (C97_load). C97_transparent says that wrappers can be nested."
  },
  {
   "property": "C98",
   "status": "partial",
   "theorems": [
    "CC.C98_calls_partial",
    "CC.C98_complete_partial",
    "CC.C98_defined",
    "CC.C98_registered_partial",
    "CC.C98_names",
    "CC.C98_example",
    "CC.C98_collision",
    "CC.C98_undefined",
    "CC.C98_quoted",
    "CC.C98_esac"
   ],
   "note": "Names of characters that need no quotes, no two of which are prefixes followed by different numbers, distinct names of functions. C98_names: the names of the functions are distinct if the subcommands of a command have distinct names of letters and digits; the names of C98_calls_partial, C98_complete_partial and C98_defined are as said. C98_registered_partial is about programs that wrap nothing (C97 is about the others). False otherwise: the function of the subcommand b of a and that of the subcommand a_b have the same name and the latter runs (C98_collision); a program with only --help registers a function that is not defined (C98_undefined); names that need quotes (C98_quoted) and a subcommand esac (C98_esac) make the text unreadable. What a function does besides calling others is a parameter (C98_complete_partial takes it from C66 and C67)."
  },
  {
   "property": "C99",
   "status": "partial",
   "theorems": [
    "CC.C99_delivers_partial",
    "CC.C99_nothing",
    "CC.C99_succeeds",
    "CC.C99_crash_partial",
    "CC.C99_executes",
    "CC.C99_paths",
    "CC.C99_inside_partial",
    "CC.C99_install_uninstall",
    "CC.C99_batch",
    "CC.C99_status_partial",
    "CC.C99_python_partial",
    "CC.C99_python_delivers",
    "CC.C99_example",
    "CC.C99_truncated",
    "CC.C99_ignored",
    "CC.C99_uninstall_needs_definition",
    "CC.C99_outside",
    "CC.C99_same_name",
    "CC.C99_exits",
    "CC.C99_twice",
    "CC.C99_nested"
   ],
   "note": "Definitions in JSON, YAML and help texts; for Python files C99_python_partial and C99_python_delivers. Installing is asked for with an output for a shell. False otherwise: an interrupted run loses the old content of the file (C99_truncated), with JSON or YAML as output installing and uninstalling are ignored (C99_ignored), uninstalling needs a valid definition (C99_uninstall_needs_definition), names with slashes leave the directory (C99_outside), the second of two Python files of the same name is not read (C99_same_name), a Python file that calls sys.exit(0) ends the program silently with status 0 (C99_exits), one that raises an exception is executed twice and not searched (C99_twice), a batch in a batch ends both with status 0 (C99_nested). The readers, the generators, argparse and shlex are parameters. Paths are texts."
  },
  {
   "property": "C100",
   "status": "proved",
   "theorems": [
    "CC.C100_settings",
    "CC.C100_extension",
    "CC.C100_features",
    "CC.C100_boolean",
    "CC.C100_version",
    "CC.C100_example",
    "CC.C100_odd_versions"
   ],
   "note": "Case folding of ASCII letters. C100_odd_versions: signs, blanks and underscores are accepted in versions, as by int()."
  },
  {
   "property": "C101",
   "status": "partial",
   "theorems": [
    "CC.C101_options_partial",
    "CC.C101_operands_partial",
    "CC.C101_option_partial",
    "CC.C101_operand_partial",
    "CC.C101_repeatable",
    "CC.C101_alias",
    "CC.C101_example",
    "CC.C101_longer",
    "CC.C101_subcommand",
    "CC.C101_question"
   ],
   "note": "Exactly which contexts are caught is proved for names without characters that mean something in patterns. As stated it is false: the pattern of an option also catches longer names (C101_longer) and -? every letter (C101_question), operands of subcommands are counted from the subcommand (C101_subcommand), repeatable positionals and aliases of the program are never caught (C101_repeatable, C101_alias)."
  },
  {
   "property": "C102",
   "status": "partial",
   "theorems": [
    "CC.C102_offered_partial",
    "CC.C102_unreadable",
    "CC.C102_example_text",
    "CC.C102_example_run",
    "CC.C102_example_hypotheses",
    "CC.C102_unreadable_example"
   ],
   "note": "Proved for the text itself, for option strings of letters, digits and -_=+:,.@%/, values in when without line breaks, and when conditions as in C08. As stated it is false: if all options of a command are hidden and there is a final option, Bash cannot read the text (C102_unreadable)."
  },
  {
   "property": "C103",
   "status": "partial",
   "theorems": [
    "CC.C103_completed_partial",
    "CC.C103_as_modelled_partial",
    "CC.C103_example_text",
    "CC.C103_example_run",
    "CC.C103_example_hypotheses",
    "CC.C103_not_first"
   ],
   "note": "Proved for the text itself, for values in when without line breaks, when conditions as in C08 and codes that are complete commands. Without conditions the first positional is not always the one that is completed (C103_not_first): this needs a positional behind one that can be repeated, which only the reader of definition files refuses."
  },
  {
   "property": "C104",
   "status": "partial",
   "theorems": [
    "CC.C104_as_modelled_partial",
    "CC.C104_completed_partial",
    "CC.C104_written",
    "CC.C104_only_optional",
    "CC.C104_example_text",
    "CC.C104_example_hypotheses"
   ],
   "note": "Proved for the text itself, for distinct option strings of plain characters without the clash of numbers of C11, values in when without line breaks, when conditions as in C08 and codes that are complete commands. False if all arguments are optional and no option has a condition: then the function runs nothing and succeeds (C104_only_optional)."
  },
  {
   "property": "C105",
   "status": "partial",
   "theorems": [
    "CC.C105_command_partial",
    "CC.C105_next_partial",
    "CC.C105_equals_partial",
    "CC.C105_attached_partial",
    "CC.C105_command_example",
    "CC.C105_as_modelled_partial",
    "CC.C105_with_function_partial",
    "CC.C105_example_text",
    "CC.C105_example_hypotheses",
    "CC.C105_negated"
   ],
   "note": "Proved for the text itself, for every result of the calls (a call that fails finds nothing) and together with the text of the called function (C105_with_function_partial), also for each command of a definition (C105_command_partial, and as statements about the words in C105_next_partial, C105_equals_partial, C105_attached_partial), for short options with letters that stand for themselves between brackets and old-style strings of plain characters. False for the letter ! or ^ in front: the brackets are negated (C105_negated)."
  },
  {
   "property": "C106",
   "status": "partial",
   "theorems": [
    "CC.C106_delegated_partial",
    "CC.C106_dash_first",
    "CC.C106_option_value",
    "CC.C106_example",
    "CC.C106_text",
    "CC.C106_text_example"
   ],
   "note": "Proved with both parsers for lines in which the other command does not occur before its place, once the words that count as positionals reach the place of the arguments (C106_delegated_partial); the text written for it is read and does, when run, what the model of the function says (C106_text). False if the other command is also the name of the program (C67_command_twice) or the argument of an option before it (C106_option_value), and if its first argument looks like an option: then the options of the program are offered (C106_dash_first)."
  },
  {
   "property": "C107",
   "status": "proved",
   "theorems": [
    "CC.C107_functions",
    "CC.C107_functions_example",
    "CC.C107_quoted_break",
    "CC.C107_script",
    "CC.C107_script_example"
   ],
   "note": "Line by line, for every text of the pieces and every name on one line (C107_functions), and for the functions of a command line with the texts of C98 and C106 (C107_script); a function without any piece is not written by the generator. The words on the lines are not always kept: a line break in quotes gets two blanks behind it by the indentation (C107_quoted_break)."
  }
 ]
}