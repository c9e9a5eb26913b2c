{"id": "C01", "title": "Shell quoting is lossless", "statement": "For every string s, a POSIX shell that reads the text shell.quote(s) as one word, doing quote removal, obtains exactly s: no splitting, no expansion, no leftover quote, and the reading ends exactly at the end of the text.", "quantifier": "all strings s, and both values of quote_empty_string (with quote_empty_string=False the empty string yields empty text and nothing else changes)", "why_tests_cant": "The space of strings is infinite and the function has four branches with sequential replacements; tests sample a few characters per branch.", "anchors": ["crazy_complete/shell.py:quote", "crazy_complete/shell.py:needs_quote"]}
{"id": "C02", "title": "Joined arguments split back into the same list", "statement": "For every list of strings, a POSIX shell that splits the text shell.join_quoted(args) into words obtains exactly the list args: same number of words, same order, same contents, also when arguments are empty or contain blanks, newlines and quotes.", "quantifier": "all finite lists of arbitrary strings", "why_tests_cant": "Both the list length and the contents are unbounded; interaction of adjacent quoted words cannot be enumerated.", "anchors": ["crazy_complete/shell.py:join_quoted", "crazy_complete/shell.py:quote"]}
{"id": "C03", "title": "Quoting for Fish", "statement": "The Fish generator emits the same shell.quote text. For every string s, Fish's own word reader applied to shell.quote(s) should give exactly s.", "quantifier": "all strings s, read by Fish's quoting rules instead of POSIX's", "why_tests_cant": "Fish gives backslash a meaning inside single quotes and no meaning to a backquote; the strings on which the two shells disagree are a thin infinite set.", "anchors": ["crazy_complete/shell.py:quote", "crazy_complete/fish_utils.py:FishString.escape"]}
{"id": "C04", "title": "Generated identifiers are valid", "statement": "For every string, shell.make_identifier returns either the empty string or a shell identifier (a letter or underscore followed by letters, digits and underscores) without two consecutive underscores inside the cleaned text; letters and digits of the input survive in order; and applying it twice is the same as applying it once.", "quantifier": "all strings", "why_tests_cant": "Arbitrary Unicode input and the interplay of three rewriting passes.", "anchors": ["crazy_complete/shell.py:make_identifier"]}
{"id": "C05", "title": "Fish condition commands survive double quoting", "statement": "A Fish condition is written as a double-quoted text holding a command prefix variable and quoted arguments. For every list of arguments, Fish's expansion of the double-quoted text yields the prefix followed by exactly the text of the individually quoted arguments, so no character of an argument closes the string or expands a variable.", "quantifier": "all lists of argument strings", "why_tests_cant": "Two nested quoting layers over unbounded strings.", "anchors": ["crazy_complete/fish_conditions.py:make_condition_command", "crazy_complete/fish_conditions.py:escape_in_double"]}
{"id": "C06", "title": "A quoted condition command is read back literally", "statement": "Parsing a `when` string that consists of the quoted words of a command gives exactly one command with exactly those words; operators and parentheses that are inside quotes are never mistaken for operators.", "quantifier": "all non-empty lists of strings", "why_tests_cant": "Unbounded strings, including strings that look like operators.", "anchors": ["crazy_complete/shell_parser.py:Lexer", "crazy_complete/shell_parser.py:make_commands", "crazy_complete/shell_parser.py:parse"]}
{"id": "C07", "title": "`when` syntax checking accepts exactly the boolean expressions", "statement": "A `when` string is accepted exactly if its tokens form a boolean expression built from commands with `!`, `&&`, `||` and parentheses; everything else raises an error instead of producing broken shell code.", "quantifier": "all token sequences", "why_tests_cant": "Unbounded nesting of parentheses and operators.", "anchors": ["crazy_complete/shell_parser.py:check_syntax", "crazy_complete/when.py:parse_when"]}
{"id": "C08", "title": "Bash and Zsh condition code means what the `when` expression means", "statement": "For every boolean expression accepted as `when`, the generated condition code, parsed by the shell's own grammar for and-or lists and brace groups, succeeds in exactly the states in which the expression is true, and does so also when it is placed between other conditions with `&&` as the generators do.", "quantifier": "all expressions, all truth assignments to the primitive conditions, all surrounding conditions", "why_tests_cant": "Unbounded expression depth; grouping mistakes only show for particular truth assignments.", "anchors": ["crazy_complete/bash_when.py:ConditionGenerator.generate", "crazy_complete/zsh_when.py:_generate", "crazy_complete/when.py:needs_braces"]}
{"id": "C09", "title": "Fish condition code means what the `when` expression means", "statement": "For every boolean expression accepted as `when`, the text Fish evaluates (with begin/end groups) succeeds in exactly the states in which the expression is true, and an option is offered iff all its conditions hold whatever order they are emitted in.", "quantifier": "all expressions, all truth assignments, all condition lists", "why_tests_cant": "Unbounded expression depth and reordering of conditions.", "anchors": ["crazy_complete/fish_conditions.py:Conditions.get_conditions", "crazy_complete/fish_conditions.py:Conditions._optimized_conditions", "crazy_complete/fish_conditions.py:replace_commands"]}
{"id": "C10", "title": "Primitive `when` conditions are validated", "statement": "option_is/option_match/has_option/positional_count/positional_contains accept an argument list exactly if it has the documented shape; an accepted option_is has at least one option, only valid option strings, and at least one value, and options and values are exactly the arguments before and after the first `--`, after leading nocase/any flags.", "quantifier": "all argument lists", "why_tests_cant": "Unbounded argument lists, with flags and separators anywhere.", "anchors": ["crazy_complete/when.py:OptionIs", "crazy_complete/when.py:OptionMatch", "crazy_complete/when.py:HasOption", "crazy_complete/when.py:PositionalCount", "crazy_complete/when.py:PositionalContains"]}
{"id": "C11", "title": "Compact Bash patterns match exactly the given strings", "statement": "For every list of strings, the Bash extglob pattern returned by bash_patterns.make_pattern matches a word iff the word is one of the strings.", "quantifier": "all finite lists of strings, all candidate words", "why_tests_cant": "The pattern is built from a trie of unbounded size and every other word must fail to match.", "anchors": ["crazy_complete/bash_patterns.py:make_pattern", "crazy_complete/bash_patterns.py:trie_to_pattern", "crazy_complete/bash_patterns.py:_build_pattern"]}
{"id": "C12", "title": "File extension patterns are case-insensitive and exact", "statement": "The Bash pattern (and the Fish regex) generated for a list of file extensions matches an extension iff it equals one of the listed ones ignoring letter case (or, with fuzzy, begins with one).", "quantifier": "all extension lists, all candidate strings", "why_tests_cant": "Infinite set of candidate strings that must not match.", "anchors": ["crazy_complete/bash_utils.py:make_file_extension_pattern", "crazy_complete/fish_complete.py:_get_extension_regex"]}
{"id": "C13", "title": "Glob to regex conversion preserves the language", "statement": "For every Bash glob that bash_glob_to_regex accepts, the returned regular expression matches exactly the strings the glob matches; anything it cannot express raises ValueError.", "quantifier": "all glob strings, all candidate strings", "why_tests_cant": "Language equality over infinitely many strings.", "anchors": ["crazy_complete/pattern.py:bash_glob_to_regex", "crazy_complete/pattern.py:GlobParser"]}
{"id": "C14", "title": "Glob to Zsh glob conversion preserves the language", "statement": "For every Bash glob that bash_glob_to_zsh_glob accepts, the returned Zsh pattern matches exactly the strings the glob matches.", "quantifier": "all glob strings, all candidate strings", "why_tests_cant": "Language equality over infinitely many strings.", "anchors": ["crazy_complete/pattern.py:bash_glob_to_zsh_glob", "crazy_complete/pattern.py:Literal.to_zsh_glob"]}
{"id": "C15", "title": "Option string kinds partition the valid option strings", "statement": "Every option string accepted by the Option constructor is exactly one of short (-x), long (--xyz) or old-style (-xyz); so the three getters split the option strings without loss or duplication, and `--` is never accepted.", "quantifier": "all strings", "why_tests_cant": "Infinite domain with boundary cases at lengths 2 and 3.", "anchors": ["crazy_complete/cli.py:is_short_option_string", "crazy_complete/cli.py:is_long_option_string", "crazy_complete/cli.py:is_old_option_string", "crazy_complete/str_utils.py:is_valid_option_string"]}
{"id": "C16", "title": "A subcommand's options override its parents' options", "statement": "get_options(with_parent_options=True) returns, for every set of option strings, the options of the nearest command line on the path to the root that defines that set, and nothing for it from further up; every option of the command itself is returned; options with the same key stay together; the key identifies the set of option strings.", "quantifier": "all command trees, all nodes", "why_tests_cant": "Unbounded depth and option counts.", "anchors": ["crazy_complete/cli.py:CommandLine.OptionsGetter", "crazy_complete/cli.py:Option.get_option_strings_key"]}
{"id": "C17", "title": "Mutual exclusion is symmetric and irreflexive", "statement": "get_conflicting_options never contains the option itself, lists exactly the other options of the command that share a group with it, lists none twice, and A conflicts with B iff B conflicts with A.", "quantifier": "all command lines and all group assignments", "why_tests_cant": "Unbounded numbers of options and overlapping groups; duplicates compare equal structurally.", "anchors": ["crazy_complete/cli.py:Option.get_conflicting_options"]}
{"id": "C18", "title": "Positional numbers are absolute and never overlap between levels", "statement": "get_positional_num of a positional is its own number plus the number of positionals (highest number, plus one for the subcommand slot) of every ancestor; every positional of a command comes after the subcommand word that selected it, and the subcommand slot comes after all positionals of its command.", "quantifier": "all command trees and nodes", "why_tests_cant": "Unbounded depth.", "anchors": ["crazy_complete/cli.py:Positional.get_positional_index", "crazy_complete/cli.py:CommandLine.get_highest_positional_num", "crazy_complete/cli.py:SubCommandsOption"]}
{"id": "C19", "title": "Traversal visits every command exactly once, parents first", "statement": "get_all_commandlines lists every command of the tree exactly once, a command before its subcommands and siblings in definition order; distinct commands have distinct command paths as lists of names.", "quantifier": "all command trees", "why_tests_cant": "Unbounded trees.", "anchors": ["crazy_complete/cli.py:CommandLine.visit_commandlines", "crazy_complete/cli.py:CommandLine.get_all_commandlines"]}
{"id": "C20", "title": "copy produces an equal command line", "statement": "For every command line that can be built with the API, copy() succeeds and the copy equals the original, with all parent links pointing into the copy and the same absolute positional numbers.", "quantifier": "all command trees built by the API", "why_tests_cant": "Unbounded trees; copy re-runs every constructor check.", "anchors": ["crazy_complete/cli.py:CommandLine.copy", "crazy_complete/cli.py:CommandLine.__eq__"]}
{"id": "C21", "title": "Configuration is applied completely and only where inherited", "statement": "After enhance_commandline no INHERIT setting is left anywhere in the tree, explicitly set values are kept unless a disable_* switch overrides them, each disable_* switch takes effect on every option and positional, applying the configuration twice changes nothing more, and nothing else changes.", "quantifier": "all command trees and all configurations", "why_tests_cant": "Product of all trees with all configurations.", "anchors": ["crazy_complete/generation.py:_apply_config", "crazy_complete/generation.py:enhance_commandline"]}
{"id": "C22", "title": "Subcommand names stay unique", "statement": "After any sequence of add_commandline/add_commandline_object calls, subcommand names of a command are pairwise distinct, a rejected call leaves the list unchanged, and looking up a name returns the subcommand added under it.", "quantifier": "all sequences of additions", "why_tests_cant": "All histories of calls.", "anchors": ["crazy_complete/cli.py:SubCommandsOption.add_commandline_object", "crazy_complete/cli.py:SubCommandsOption.add_commandline", "crazy_complete/cli.py:SubCommandsOption.get_subcommand_by_name"]}
{"id": "C23", "title": "Looking options up by option string", "statement": "get_options_by_option_strings fails exactly if some given string belongs to no option of the command; otherwise it returns, without duplicates and in order of first mention, exactly the first options containing the given strings.", "quantifier": "all commands and all lists of strings", "why_tests_cant": "Unbounded lists.", "anchors": ["crazy_complete/cli.py:CommandLine.get_options_by_option_strings"]}
{"id": "C24", "title": "Abbreviations are unambiguous and complete", "statement": "For every word list, the abbreviations of a word are exactly the word itself plus its prefixes of at least the minimum length that are not a prefix of any other word of the list, longest first; so no proper abbreviation is shared by two words, and an abbreviation is never another full word.", "quantifier": "all word lists, minimum lengths and words", "why_tests_cant": "All pairs of prefixes over unbounded word lists.", "anchors": ["crazy_complete/utils.py:GeneralAbbreviationGenerator", "crazy_complete/utils.py:OptionAbbreviationGenerator", "crazy_complete/utils.py:CommandAbbreviationGenerator"]}
{"id": "C25", "title": "A subcommand word selects one subcommand", "statement": "For sibling subcommands with pairwise distinct names and aliases, the sets of words returned by get_all_command_variations for two different siblings are disjoint, with and without abbreviation, so the generated case patterns select at most one.", "quantifier": "all sibling lists", "why_tests_cant": "All pairs over unbounded lists.", "anchors": ["crazy_complete/utils.py:get_all_command_variations"]}
{"id": "C26", "title": "Dictionary export and import round-trip", "statement": "For every command tree built by the API, importing the dictionaries written by commandline_to_dictionaries gives a command line equal to the original.", "quantifier": "all command trees satisfying the stated well-formedness", "why_tests_cant": "Unbounded trees and attribute combinations, including defaults that are left out of the export.", "anchors": ["crazy_complete/dictionary_source.py:commandline_to_dictionaries", "crazy_complete/dictionary_source.py:dictionaries_to_commandline"]}
{"id": "C27", "title": "Dictionary import rejects inconsistent command trees", "statement": "dictionaries_to_commandline succeeds exactly if every document can be read, no path is defined twice, every subcommand comes after its parent, and there is exactly one main command; then the tree contains exactly the defined commands at their paths with their attributes, subcommands being in the order of definition.", "quantifier": "all lists of dictionaries", "why_tests_cant": "All orders and all path shapes.", "anchors": ["crazy_complete/dictionary_source.py:dictionaries_to_commandline", "crazy_complete/dictionary_source.py:_get_commandline_by_path"]}
{"id": "C28", "title": "Defines are substituted everywhere", "statement": "The first %defines% document is removed and each string value equal to a defined name, at any depth of any other document, is replaced by its definition; all other values, keys and orders stay. If definitions mention no defined names, none is left; documents without references are unchanged.", "quantifier": "all documents and define tables", "why_tests_cant": "Unbounded nesting.", "anchors": ["crazy_complete/dictionary_source.py:replace_defines_in_documents", "crazy_complete/yaml_source.py:replace_defines_in_documents"]}
{"id": "C29", "title": "The tracing YAML parser rebuilds the document", "statement": "For every YAML tree made of mappings and sequences, feeding its event stream to ExtendedYAMLParser yields exactly that tree, with every scalar, key and order preserved and each document separate; an alias event is always an error.", "quantifier": "all document trees and lists of documents", "why_tests_cant": "Unbounded nesting of the event stream and a shared mutable stack.", "anchors": ["crazy_complete/extended_yaml_parser.py:ExtendedYAMLParser.handle_event", "crazy_complete/extended_yaml_parser.py:ExtendedYAMLParser.add_to_current_structure"]}
{"id": "C30", "title": "Backward compatible `group` keys", "statement": "Fixing dictionaries removes every `group` key from options, keeps `groups` when both are given, otherwise makes `groups` the one-element list of the old value, leaves everything else and non-dictionary input untouched, and is idempotent.", "quantifier": "all dictionary structures", "why_tests_cant": "Arbitrary nesting of wrong types.", "anchors": ["crazy_complete/compat.py:fix_commandline_dictionaries", "crazy_complete/compat.py:fix_option_dictionary"]}
{"id": "C31", "title": "Python ranges become the same set of numbers", "statement": "For every non-empty Python range used as choices, the inclusive range emitted as completer denotes exactly the numbers of the Python range.", "quantifier": "all integers start, stop and all non-zero steps", "why_tests_cant": "Infinite integer domain with sign cases.", "anchors": ["crazy_complete/argparse_source.py:range_to_complete"]}
{"id": "C32", "title": "argparse conversion keeps every action", "statement": "Converting a parser yields one option per optional action with the same option strings in order, and positionals numbered 1,2,3,... in order of appearance; nargs '?' means an optional argument and '+'/'*' a repeatable positional.", "quantifier": "all action lists", "why_tests_cant": "Unbounded action lists.", "anchors": ["crazy_complete/argparse_source.py:argumentparser_to_commandline"]}
{"id": "C33", "title": "Repeatable positionals are validated", "statement": "If the scheme validator accepts a command's positionals, then at most one position is repeatable, no positional has a number higher than the repeatable one, and a command with subcommands has no repeatable positional.", "quantifier": "all positional lists", "why_tests_cant": "Unbounded lists and duplicate numbers.", "anchors": ["crazy_complete/scheme_validator.py:_check_positionals_repeatable"]}
{"id": "C34", "title": "Every definition is validated and has a parent", "statement": "If validate accepts a list of definitions then each definition's parent path is defined, no path is defined twice, exactly one program is defined, and every definition in the list has been checked.", "quantifier": "all lists of definitions", "why_tests_cant": "Unbounded path depth.", "anchors": ["crazy_complete/scheme_validator.py:DefinitionTree", "crazy_complete/scheme_validator.py:validate"]}
{"id": "C35", "title": "Completer arguments are validated", "statement": "The validator accepts a completer invocation only if the command is known and its arguments satisfy the documented constraints (range: integers, non-zero step, start and stop ordered with the sign of the step; key_value_list: non-empty, unique keys, excludes name existing keys; separators one character; nested completers recursively valid).", "quantifier": "all completer definitions including arbitrarily nested ones", "why_tests_cant": "Unbounded nesting of list/prefix/combine/key_value_list.", "anchors": ["crazy_complete/scheme_validator.py:_check_complete", "crazy_complete/scheme_validator.py:_check_range", "crazy_complete/scheme_validator.py:_check_key_value_list"]}
{"id": "C36", "title": "Preprocessor keeps exactly the active lines", "statement": "preprocess fails iff the directives are unbalanced (or an #ifdef has no name); otherwise it outputs, in order and unchanged, exactly the non-directive lines all of whose enclosing #ifdef/#else branches are active.", "quantifier": "all texts and define sets", "why_tests_cant": "Unbounded nesting depth.", "anchors": ["crazy_complete/preprocessor.py:preprocess"]}
{"id": "C37", "title": "Indentation only adds spaces to non-blank lines", "statement": "indent keeps the number of lines, leaves blank lines unchanged, prefixes every other line with exactly the given number of spaces, and indenting by a then b equals indenting by a+b.", "quantifier": "all strings and widths", "why_tests_cant": "Unbounded text.", "anchors": ["crazy_complete/str_utils.py:indent"]}
{"id": "C38", "title": "Wrapped joins respect the line length and lose nothing", "statement": "join_with_wrap splits the items into consecutive non-empty lines in order without losing any; every line with more than one item is at most max_line_length long (including the prefix) and a line break happens only where the next item would not have fitted.", "quantifier": "all item lists, separators, prefixes and lengths", "why_tests_cant": "Unbounded lists and lengths.", "anchors": ["crazy_complete/str_utils.py:join_with_wrap"]}
{"id": "C39", "title": "Comment stripping removes exactly the comment lines", "statement": "strip_comments removes exactly the lines whose first non-blank character is '#', keeps all other lines in order, and is idempotent; strip_double_empty_lines never removes anything but newline characters and never joins two non-empty lines.", "quantifier": "all strings", "why_tests_cant": "Unbounded text.", "anchors": ["crazy_complete/str_utils.py:strip_comments", "crazy_complete/str_utils.py:strip_double_empty_lines"]}
{"id": "C40", "title": "List utilities meet their contracts", "statement": "uniq keeps the first occurrence of every element in order and nothing else; partition splits into the matching and the non-matching elements in order; group_by returns every element exactly once under its key, groups in order of first appearance and elements in order; numbers_are_contiguous is true iff the numbers are a gap-free run without repetition.", "quantifier": "all lists, predicates and key functions", "why_tests_cant": "Unbounded lists and arbitrary functions.", "anchors": ["crazy_complete/algo.py:uniq", "crazy_complete/algo.py:partition", "crazy_complete/algo.py:group_by", "crazy_complete/algo.py:numbers_are_contiguous"]}
{"id": "C41", "title": "Sparse list assignment", "statement": "After any sequence of assignments to non-negative indices of a SparseList, reading an assigned index gives the last value assigned to it, every other index below the length gives the default, and the length is one more than the highest assigned index.", "quantifier": "all sequences of assignments", "why_tests_cant": "All histories.", "anchors": ["crazy_complete/algo.py:SparseList"]}
{"id": "C42", "title": "Dynamic helper functions have unique names", "statement": "After any sequence of add_dynamic_func calls, two different code bodies never share a function name, equal code always gets the same name, a name once handed out stays bound to its code, and the name search always terminates.", "quantifier": "all call histories", "why_tests_cant": "All histories of calls with arbitrary contexts.", "anchors": ["crazy_complete/helpers.py:GeneralHelpers.add_dynamic_func", "crazy_complete/helpers.py:GeneralHelpers.get_dynamic_funcname"]}
{"id": "C43", "title": "Used helper functions are emitted with all their dependencies", "statement": "After any sequence of use_function calls over an acyclic function repository, the set of emitted helper functions is exactly the closure of the requested ones under dependencies, each emitted once, and with at least the defines requested for it.", "quantifier": "all repositories and call histories", "why_tests_cant": "All dependency graphs and histories.", "anchors": ["crazy_complete/helpers.py:GeneralHelpers.use_function", "crazy_complete/helpers.py:GeneralHelpers.get_used_functions_code"]}
{"id": "C44", "title": "Completion function names identify commands", "statement": "Within a generated script, the completion function names of two different commands of the tree are different.", "quantifier": "all command trees", "why_tests_cant": "All pairs of paths.", "anchors": ["crazy_complete/helpers.py:GeneralHelpers.make_completion_funcname"]}
{"id": "C45", "title": "Both Bash command line parsers agree", "statement": "The Bash generator picks the shorter of two generated parsers. For every command tree and every command line, both set the same option arrays and the same positionals.", "quantifier": "all command trees, all word lists", "why_tests_cant": "Infinite product of definitions and command lines.", "anchors": ["crazy_complete/bash_parser.py:generate", "crazy_complete/bash_parser_v2.py:generate", "crazy_complete/bash.py:BashCompletionGenerator._generate"]}
{"id": "C46", "title": "The Bash parser captures options and positionals correctly", "statement": "For every command line written in the documented forms (--long value, --long=value, -x value, -xvalue, stacked flags, old-style options, `--`), the generated parser records exactly the given values for each option, exactly the positionals in order, and follows subcommand words (including aliases and abbreviations) to the canonical command.", "quantifier": "all command trees, all well-formed invocations", "why_tests_cant": "Infinite set of invocations.", "anchors": ["crazy_complete/bash_parser.py:_PARSER_CODE", "crazy_complete/bash_parser_v2.py:_PARSER_CODE", "crazy_complete/bash_parser_subcommand_code.py:make_subcommand_switch_code"]}
{"id": "C47", "title": "Bash offers an option iff it is still allowed", "statement": "An option string is offered iff the option is not hidden, no final option was given, none of its conflicting options was given, it was not given before unless repeatable, and its `when` condition holds; grouping options by condition changes nothing.", "quantifier": "all option lists and all parser states", "why_tests_cant": "All subsets of given options times all option lists.", "anchors": ["crazy_complete/bash_option_strings_completion.py:generate", "crazy_complete/bash_option_strings_completion.py:_generate_option_strings_completion"]}
{"id": "C48", "title": "Option variables in Bash are unique", "statement": "Different options of a command tree are recorded in different shell variables, and variable names are valid identifiers.", "quantifier": "all option lists", "why_tests_cant": "All pairs of option strings.", "anchors": ["crazy_complete/bash_utils.py:make_option_variable_name", "crazy_complete/bash_utils.py:VariableManager"]}
{"id": "C49", "title": "Query strings describe options faithfully", "statement": "The option table given to the Fish/Zsh query helper lists every option string of the command exactly once with suffix '=' if an argument is required, '=?' if optional and none otherwise, and reading it back yields the option table.", "quantifier": "all option lists", "why_tests_cant": "Unbounded lists.", "anchors": ["crazy_complete/utils.py:get_query_option_strings"]}
{"id": "C50", "title": "Fish complete command flags are consistent", "statement": "A generated `complete` command never carries -r or -f together with -x, -x is present iff both an argument is required and files are disabled (or -x was asked for), and every option, condition and description appears exactly once in order.", "quantifier": "all sequences of builder calls", "why_tests_cant": "All histories.", "anchors": ["crazy_complete/fish_utils.py:FishCompleteCommand"]}
{"id": "C51", "title": "Fish condition variables are stable", "statement": "Adding conditions to the Fish variable manager gives equal conditions the same variable and different conditions different variables, after any sequence of additions, and every variable returned is defined by get_lines with exactly its condition.", "quantifier": "all sequences of additions", "why_tests_cant": "All histories; the counter outgrows its three digits.", "anchors": ["crazy_complete/fish_utils.py:VariableManager"]}
{"id": "C52", "title": "Zsh colon and bracket escaping is lossless", "statement": "Descriptions and metavars put into a Zsh option spec are delimited by ':' and ']' ; for every text, reading the escaped text up to the first unescaped delimiter and unescaping it gives back the text.", "quantifier": "all strings", "why_tests_cant": "Unbounded strings; backslashes before the delimiter.", "anchors": ["crazy_complete/zsh_utils.py:escape_colon", "crazy_complete/zsh_utils.py:escape_square_brackets", "crazy_complete/zsh_utils.py:escape_colon_in_quoted_string"]}
{"id": "C53", "title": "Zsh option specs exclude the right options", "statement": "In the generated Zsh option spec the exclusion list contains exactly the conflicting option strings and, unless repeatable, the option's own strings, each once; a final option excludes everything; repeatable options and only those carry '*'.", "quantifier": "all options", "why_tests_cant": "Unbounded option lists.", "anchors": ["crazy_complete/zsh_utils.py:make_option_spec"]}
{"id": "C54", "title": "The help parser never loses text or fails", "statement": "Parsing any help text terminates, never crashes, and the returned items cover the text completely and in order.", "quantifier": "all texts", "why_tests_cant": "Arbitrary user supplied text.", "anchors": ["crazy_complete/help_parser.py:parse", "crazy_complete/help_parser.py:parse_options_with_description"]}
{"id": "C55", "title": "Output pieces are joined without loss", "statement": "The final script consists of exactly the non-empty pieces in the order added, separated by one empty line.", "quantifier": "all sequences of additions", "why_tests_cant": "All histories.", "anchors": ["crazy_complete/output.py:Output"]}
{"id": "C56", "title": "Calls between helper functions reach the emitted functions", "statement": "In the emitted code of a helper function every whole word that is the name of one of its dependencies is replaced by the name under which the dependency is emitted, and nothing else changes, in particular not the function's own name.", "quantifier": "all prefixes, dependency lists and code texts", "why_tests_cant": "Sequential textual replacement over unbounded text; an early replacement can be hit by a later one.", "anchors": ["crazy_complete/helpers.py:replace_function_name", "crazy_complete/helpers.py:GeneralHelpers.get_used_functions_code"]}
{"id": "C57", "title": "The Zsh query helper parses command lines correctly", "statement": "For every command line written in the documented forms (--long value, --long=value, -x value, -xvalue, stacked flags, old-style options, `--`), the Zsh query helper records exactly the given options with their arguments, exactly the positionals in order, and the option whose argument is still missing.", "quantifier": "all option lists, all well-formed invocations", "why_tests_cant": "Option tables and command lines are unbounded; option forms interact (a cluster can look like an old-style option).", "anchors": ["crazy_complete/zsh_helpers.py:_QUERY", "crazy_complete/utils.py:get_query_option_strings"]}
{"id": "C58", "title": "The Fish query helper parses command lines correctly", "statement": "For every command line in the documented forms, the Fish query helper records exactly the given options with their arguments and exactly the positionals; after the words selecting a subcommand the options known are those of the subcommand and of all its parents.", "quantifier": "all command trees, all well-formed invocations", "why_tests_cant": "Trees, option tables and command lines are unbounded; which options are known depends on the words before.", "anchors": ["crazy_complete/fish_helpers.py:_QUERY_INIT", "crazy_complete/fish_prepare.py:_get_cmdline_definitions", "crazy_complete/fish_prepare.py:_get_positional_pattern"]}
{"id": "C59", "title": "Colons in quoted Zsh actions are escaped without changing the action", "statement": "Inside an option or positional spec a colon ends the action, so colons of the quoted action are escaped. For every action the shell then reads exactly the same words as before, with a backslash before each colon and nothing else changed; in particular no protected character becomes active.", "quantifier": "all action texts with any mix of single quotes, double quotes and unquoted parts", "why_tests_cant": "Quoting states and escapes interact at every position of an unbounded text.", "anchors": ["crazy_complete/zsh_utils.py:escape_colon_in_quoted_string", "crazy_complete/string_stream.py:StringStream.parse_shell_double_quote"]}
{"id": "C60", "title": "Validation ends with acceptance or a schema error", "statement": "Validating any list of documents either succeeds or reports a schema error with its place; no other exception leaves the validator, whatever the types of the values are.", "quantifier": "all lists of documents with values of any type at any place", "why_tests_cant": "The space of ill-typed documents is unbounded; handlers that build messages can fail themselves.", "anchors": ["crazy_complete/scheme_validator.py:validate", "crazy_complete/scheme_validator.py:_check_option", "crazy_complete/scheme_validator.py:_check_positional"]}
{"id": "C61", "title": "A document that passes validation can be loaded", "statement": "If the validator accepts the documents of a YAML file (after replacing defines), then converting the documents to a command line does not fail.", "quantifier": "all lists of documents", "why_tests_cant": "Two independently written checks over unbounded documents must agree on types, nulls, names and nesting.", "anchors": ["crazy_complete/yaml_source.py:load_from_file", "crazy_complete/scheme_validator.py:validate", "crazy_complete/dictionary_source.py:dictionaries_to_commandline"]}
{"id": "C62", "title": "A help text in the usual layout is read as what it says", "statement": "For every help text in the usual layout (lines of other text; entries with any number of options separated by `,` or `|`, each with a metavar after `=`, after one space or in `[=...]`, a description after two blanks or on indented lines) the parser returns exactly the options with their metavars, the description without its indentation, and the other lines unchanged, in their order.", "quantifier": "all help texts in the layout: any number of entries, options and lines", "why_tests_cant": "Entries are found by what follows them; the reading of one entry depends on the indentation and first characters of an unbounded rest.", "anchors": ["crazy_complete/help_parser.py:parse", "crazy_complete/help_parser.py:parse_option_with_metavar", "crazy_complete/help_parser.py:parse_description"]}
{"id": "C63", "title": "Choices are offered exactly as written", "statement": "For every list or table of choices (strings and integers), in Bash, Zsh and Fish, whether the words stand in place or in a generated function, the shell offers exactly the listed words in their order, each with its description where the shell shows descriptions; in Bash those that begin with the word at the cursor, in a form that reads back as the word.", "quantifier": "all lists and tables of choices, all words at the cursor, all line lengths", "why_tests_cant": "Words pass through two or three levels of quoting, wrapping, indentation and the colon and backslash rules of the shells; the texts are unbounded.", "anchors": ["crazy_complete/bash_complete.py:CompgenW", "crazy_complete/zsh_complete.py:ZshCompleteChoices", "crazy_complete/fish_complete.py:FishCompleteChoices", "crazy_complete/bash_helpers.py:_VALUES"]}
{"id": "C64", "title": "Leaving out unused parts of the query helpers changes nothing", "statement": "The query helper put into a Zsh or Fish script contains only the parts for the kinds of options that occur in the command line. The kinds are found exactly, and for every list of words the reduced helper finds the same positionals, the same option whose argument is missing, and for every option of the command line the same values as the complete helper.", "quantifier": "all command lines of any depth, all lists of words, also ill-formed ones", "why_tests_cant": "Each of the kinds can be absent; trees and command lines are unbounded, and the parts share code paths.", "anchors": ["crazy_complete/utils.py:get_defined_option_types", "crazy_complete/zsh.py:generate_completion", "crazy_complete/fish.py:generate_completion", "crazy_complete/zsh_helpers.py:_QUERY", "crazy_complete/fish_helpers.py:_QUERY_INIT"]}
{"id": "C65", "title": "Making one completer does not change another", "statement": "A completer that is written once and used in several places, through a define or an alias, and a command line from which several scripts are generated, give the same completer in every place and in every script: the separator and the duplicates that were written.", "quantifier": "all command lines whose completers share dictionaries in any way, and all numbers of scripts generated from them", "why_tests_cant": "The sharing between definitions is arbitrary and the effect shows only in the second use, in a different option or in a later script.", "anchors": ["crazy_complete/shell.py:ShellCompleter.file_list", "crazy_complete/shell.py:ShellCompleter.directory_list", "crazy_complete/cli.py:CommandLine.copy", "crazy_complete/dictionary_source.py:replace_defines_in_documents"]}
{"id": "C66", "title": "The Bash script completes the argument of the option at the cursor", "statement": "For every command line definition and every line typed, if the word at the cursor is the argument of an option - because the words before end with an option that must have one (--name, -old, -xyo), or because the word at the cursor is --name=VALUE, -old=VALUE or -xyoVALUE - the generated Bash script runs the completer of exactly that option, for exactly that value and with the prefix typed in the same word, and does nothing else.", "quantifier": "all command trees, all lines of valid items, all words at and after the cursor, both parsers", "why_tests_cant": "The code is spread over a dispatcher by word shape, a function with all options of a command, and calls from command to subcommand with return codes; lines and trees are unbounded.", "anchors": ["crazy_complete/bash_option_completion.py", "crazy_complete/bash.py:BashCompletionGenerator._generate", "crazy_complete/bash.py:BashCompletionGenerator._generate_subcommand_call", "crazy_complete/utils.py:is_worth_a_function"]}
{"id": "C67", "title": "The Bash script completes the right positional", "statement": "If the word at the cursor is not an option and not the argument of one, the script runs the completer of the positional of the current command that has that place (or of a repeatable positional before it), if its condition holds; at the place of the subcommands it offers exactly their names and aliases; elsewhere it completes nothing.", "quantifier": "all command trees, all lines of valid items, all words at the cursor", "why_tests_cant": "The place depends on the positionals of all commands on the way and on how many words of the line are positionals; conditions and repeatable positionals interact.", "anchors": ["crazy_complete/bash_positionals_completion.py", "crazy_complete/bash.py:BashCompletionGenerator._generate", "crazy_complete/bash.py:BashCompletionGenerator._generate_subcommand_call", "crazy_complete/cli.py:Positional.get_positional_num"]}
{"id": "C68", "title": "The Fish script offers exactly the options that may still be given", "statement": "For every command line definition and every line typed, the generated Fish script offers an option string exactly if its option belongs to the command that the line has reached, or to a parent command whose options are passed on, and may still be given: no final option was given, no option that excludes it, not itself unless it is repeatable, its condition is true, it was typed out if it is hidden, and the arguments of a command given as a positional have not begun. An option whose argument is still missing does not count as given, so its argument is completed.", "quantifier": "all command trees, all lines of valid items, all option strings", "why_tests_cant": "Trees and lines are unbounded; each `complete` command is guarded by conditions about the words of all parent commands, and conditions of one command are added to others.", "anchors": ["crazy_complete/fish.py:FishCompletionGenerator._complete_option", "crazy_complete/fish.py:FishCompletionGenerator._fix_command_arg", "crazy_complete/fish.py:_get_positional_contains", "crazy_complete/fish_conditions.py:Conditions"]}
{"id": "C69", "title": "The Fish script completes the right positional and the right subcommands", "statement": "For every command line definition and every line typed, the generated Fish script completes a positional exactly if it belongs to the command that the line has reached, its place has come (or been passed, if it is repeatable) and its condition is true; and it offers the names and aliases of the subcommands of the command reached exactly at their place.", "quantifier": "all command trees, all lines of valid items", "why_tests_cant": "Trees and lines are unbounded; the number of a positional depends on the widths of all parent commands.", "anchors": ["crazy_complete/fish.py:FishCompletionGenerator._complete_positional", "crazy_complete/fish.py:FishCompletionGenerator._complete_subcommands", "crazy_complete/fish.py:_get_positional_contains"]}
{"id": "C70", "title": "The Zsh script completes a line with the function of the command it has reached", "statement": "For every command line definition and every line typed, the generated Zsh functions call each other until the function of the command that the line belongs to; this function knows which options were given with which values, and which positionals.", "quantifier": "all command trees, all lines of valid items, all quotings of the words", "why_tests_cant": "Trees and lines are unbounded; each function on the way parses the whole line anew with its own option table, so the tables must agree for every line.", "anchors": ["crazy_complete/zsh.py:ZshCompletionFunction._generate_subcommand_call", "crazy_complete/zsh.py:ZshCompletionFunction._generate_option_parsing", "crazy_complete/zsh_helpers.py:query"]}
{"id": "C71", "title": "The Zsh script offers the options that may be given", "statement": "For every command line definition and every line typed, the specs that the Zsh function of the command reached passes to _arguments make it offer an option string exactly if it belongs to an option that the command has or inherits, is not hidden, its condition is true, it was not given before (unless repeatable), no option of a group with it was given, and no final option was given.", "quantifier": "all command trees, all lines, all sets of options given before the cursor", "why_tests_cant": "Which option is ruled out depends on all pairs of options and all lines; the specs are texts that Zsh expands and _arguments reads again.", "anchors": ["crazy_complete/zsh.py:ZshCompletionFunction._complete_option", "crazy_complete/zsh.py:ZshCompletionFunction._generate_completion_code", "crazy_complete/zsh_utils.py:make_option_spec"]}
{"id": "C72", "title": "The Zsh script completes the right positional and the right subcommands", "statement": "For every command line definition and every line typed, _arguments completes the word at the cursor with the action of a positional exactly if it belongs to the command that the words before the cursor have reached, its place has come (or been passed, if it is repeatable) and its condition is true; and with the names and aliases of the subcommands exactly at their place.", "quantifier": "all command trees, all lines, all places of the cursor", "why_tests_cant": "Trees and lines are unbounded; the number of a positional depends on the widths of all parent commands.", "anchors": ["crazy_complete/zsh.py:ZshCompletionFunction._complete_positional", "crazy_complete/zsh.py:ZshCompletionFunction._complete_subcommands", "crazy_complete/zsh_utils.py:make_positional_spec"]}
{"id": "C73", "title": "Whatever is accepted and imported can be configured", "statement": "A list of definitions that the validator accepts and that is imported can be prepared for the generators with every configuration: the second validation, of the configured command line, rejects nothing that the first one accepted, and the result is the imported command line with the configuration applied to every command.", "quantifier": "all lists of definitions, all configurations", "why_tests_cant": "The second validation sees other documents than the first: defaults are filled in, groups converted, inherited settings resolved, names rebuilt from the tree. Definitions and configurations are unbounded.", "anchors": ["crazy_complete/generation.py:enhance_commandline", "crazy_complete/generation.py:_apply_config", "crazy_complete/completion_validator.py:validate_commandlines", "crazy_complete/scheme_validator.py:validate", "crazy_complete/dictionary_source.py:dictionaries_to_commandline"]}
{"id": "C74", "title": "Only documented command lines reach the generators", "statement": "From whatever source a command line comes, if it can be prepared for the generators, every command in it is as documented: its option strings are option strings, every completer (with all the completers inside it) has a documented form with documented arguments, conditions are well-formed, an option with an argument has a completer, hidden options are not repeatable, nothing follows a repeatable positional, and command_arg only follows a command. Conversely, a command line that is as documented is not rejected.", "quantifier": "all command lines that can be built through the API, all configurations", "why_tests_cant": "Command lines, completers and their nesting are unbounded; a missing check shows only for the one malformed completer that nobody tested.", "anchors": ["crazy_complete/generation.py:enhance_commandline", "crazy_complete/completion_validator.py:validate_commandlines", "crazy_complete/scheme_validator.py:validate"]}
{"id": "C75", "title": "The exported YAML can be read back", "statement": "Exporting a command line as YAML and reading the text with a YAML reader gives exactly the exported dictionaries: the same documents with the same keys and values in the same order. So loading the file gives the command line again, and two command lines with different dictionaries never have the same text.", "quantifier": "all command lines; all texts in names, helps, metavars, conditions and completers", "why_tests_cant": "The writer builds block YAML by hand and puts JSON into it. Whether a text survives depends on every character: quotes, colons, hashes, newlines, words like null, characters outside the first plane.", "anchors": ["crazy_complete/yaml_source.py:commandline_to_yaml", "crazy_complete/yaml_source.py:to_yaml", "crazy_complete/yaml_source.py:option_to_yaml", "crazy_complete/yaml_source.py:positional_to_yaml", "crazy_complete/str_utils.py:indent"]}
{"id": "C76", "title": "The definition written from a help text says what the help text says", "statement": "The YAML text that the program writes for a help text can be read. It holds one document with the name of the program (the word after `usage:`, or the first word) and one option for every item of the help text that has options, in the same order: with its option strings, its metavar without brackets, its description on one line, whether the argument is optional, and a completer that follows from the name of the argument.", "quantifier": "all help texts: any characters, any number of options, descriptions of any number of lines, all forms of metavars", "why_tests_cant": "The converter writes YAML text by hand and copies parts of the help text into quotes and comments; which texts break the YAML, and whether every option survives with its description and argument, can only be settled for all texts by proof.", "anchors": ["crazy_complete/help_converter.py: from_file_to_yaml, fix_description, strip_metavar, complete_for_metavar", "crazy_complete/help_parser.py: get_program_name_from_help", "crazy_complete/yaml_source.py: option_to_yaml"]}
{"id": "C77", "title": "The definition written from a help text can be used", "statement": "The definition that is written for a help text is accepted by the validation and can be imported, so that completions can be generated from it without editing it.", "quantifier": "all help texts with at least one option, whatever their options, metavars and descriptions", "why_tests_cant": "Converter, YAML reader, validator and import are tested one by one; that the output of the first is always in the language of the others is a statement about all help texts.", "anchors": ["crazy_complete/help_converter.py: from_file_to_yaml", "crazy_complete/scheme_validator.py: validate", "crazy_complete/dictionary_source.py: dictionaries_to_commandline"]}
{"id": "C78", "title": "The Bash code of a completer does what the completer says, with the texts as they are", "statement": "For every completer (also nested ones: lists, combinations, prefixes, keys with values) the Bash code is read by the shell as calls of the right commands, each with exactly the texts of the definition as its words: nothing in a choice, pattern, command, directory, separator, key or suffix is expanded, split or lost. Behind earlier completers of a combination the results are added to theirs. Where a function is wanted, the function named does what the completer does. Generating the code never fails.", "quantifier": "all completers with all arguments: any texts, any nesting depth, any number of choices and keys, both versions of bash-completion, any functions defined before", "why_tests_cant": "Texts of users are put into shell code in dozens of places; each character decides whether the quoting holds, and completers nest without bound.", "anchors": ["crazy_complete/bash_complete.py: BashCompleter, BashCompletionCode, BashCompletionFunc, BashCompletionCompgen, BashCompleteCombine, BashCompleteKeyValueList, BashCompleteKeyValuePair", "crazy_complete/bash_versions.py", "crazy_complete/shell.py: file_list, directory_list"]}
{"id": "C79", "title": "A combination of completers offers exactly what its parts offer", "statement": "When completers are combined, pressing TAB in Bash offers exactly the words that its parts would offer if each of them were alone: nothing is lost, nothing is added, and no part changes the current word, the search path or the directory for the parts behind it.", "quantifier": "all combinations: any number of parts, any nesting, any current word, search path and directory, any behaviour of the called commands that only keeps, drops or adds results", "why_tests_cant": "The parts share global shell variables. Whether one part overwrites what another one saved depends on the order and the nesting of the parts.", "anchors": ["crazy_complete/bash_complete.py: BashCompleteCombine, BashCompletionCode.get_code, BashCompletionFunc.get_code, BashCompletionCompgen.get_code, BashCompleter.list, BashCompleter.command, BashCompleter.prefix", "crazy_complete/bash_helpers.py: values"]}
{"id": "C80", "title": "The Bash code knows which text a typed word stands for", "statement": "The helper function that removes quotes gives, for a word as typed (also with quotes still open), exactly the text that Bash reads from it, the place behind the last unquoted word break character, and whether quotes are open. A text that was quoted by the generator gives the text itself.", "quantifier": "all words: all characters, all combinations of quotes and backslashes, complete or not; all sets of break characters", "why_tests_cant": "Each character can be quoted in several ways, and quotes may be open at the cursor; only a proof covers all combinations.", "anchors": ["crazy_complete/bash_helpers.py: dequote"]}
{"id": "C81", "title": "A completer with a prefix completes the prefix and then the rest", "statement": "With the completer prefix, a word that does not yet start with the prefix is completed to it. After that the inner completer sees a word that stands for the rest, with the same quotes open, and whichever of its offers is chosen, the word becomes the prefix followed by what the inner completer wanted.", "quantifier": "all prefixes, all words however quoted, all inner completers, all sets of break characters", "why_tests_cant": "The prefix has to be found under any quoting, and what the line editor replaces depends on where the break characters are.", "anchors": ["crazy_complete/bash_helpers.py: prefix, strip_prefix_keep_quoting, get_last_break_position", "crazy_complete/bash_complete.py: BashCompleter.prefix"]}
{"id": "C82", "title": "A list of values is completed item by item", "statement": "With the completer value_list, the words offered are exactly these: if the item being typed is a value, the word followed by the separator, provided a value is left; otherwise the word with the item replaced by any value that starts with it and was not yet given (with duplicates: any value that starts with it).", "quantifier": "all lists of values, all separators, all words however quoted, all sets of break characters, with and without duplicates", "why_tests_cant": "Words hold any number of items, quoted in any way, and the reply depends on the place of the last break character.", "anchors": ["crazy_complete/bash_helpers.py: value_list, array_contains, dequote", "crazy_complete/bash_complete.py: BashCompleter.value_list"]}
{"id": "C83", "title": "A command line inside of a word is completed like a command line", "statement": "With the completer commandline_string, the text of the word is split into words as Bash splits a line, the command is asked for completions of the last one, and choosing an offer leaves everything before that word as it is.", "quantifier": "all texts of command lines, all quotings of the word, all offers, all sets of break characters", "why_tests_cant": "Lines are unbounded, each can be quoted in many ways, and where the current word starts is guessed from the overlap of two texts.", "anchors": ["crazy_complete/bash_helpers.py: commandline_string, parse_line, get_prefix_suffix_len"]}
{"id": "C84", "title": "Keys with values are completed pair by pair", "statement": "With the completers key_value_list and key_value_pair, the words offered are exactly these: as long as the pair being typed has no value separator, every key that starts with it and is not excluded by a pair in the word; behind a key and the separator, the values that the completer of this key offers for the text after it. The rest of the word stays as it is.", "quantifier": "all lists of keys with their completers and exclusions, all separators, all words, all sets of break characters", "why_tests_cant": "Words hold any number of pairs; the reply depends on quoting, break characters and the exclusions of all pairs.", "anchors": ["crazy_complete/bash_helpers.py: key_value_list, key_value_pair, dequote, values", "crazy_complete/bash_complete.py: BashCompleteKeyValueList, BashCompleteKeyValuePair"]}
{"id": "C85", "title": "The action of every completer does in Zsh what the completer says", "statement": "For every completer, however nested (lists, prefixes, combinations, keys with values), the action written for Zsh is a single word of the shell, and with the functions defined in the script it does what the completer is documented to do: it offers exactly the given words, or calls the named function with exactly the given arguments, whatever characters the texts contain. Where a function is wanted instead of an action, the function does the same.", "quantifier": "all completers with all arguments and all nestings, all earlier functions of the script", "why_tests_cant": "Completers nest without bound and every text passes several layers of quoting (script, action, definition of _values).", "anchors": ["crazy_complete/zsh_complete.py: ZshCompleter, ZshComplFunc, ZshKeyValueList, ZshKeyValuePair, ZshCompleteCombine", "crazy_complete/zsh_utils.py: make_file_extension_pattern, escape_square_brackets", "crazy_complete/shell.py: file_list, directory_list, login_shell"]}
{"id": "C86", "title": "The arguments of Fish's complete do what the completer says", "statement": "For every completer, however nested (lists, prefixes, combinations, keys with values), the arguments that are generated for Fish's complete command do, with the functions defined in the script, what the completer is documented to do: they offer exactly the given words, or the files, or run a command that calls the named function with exactly the given arguments, whatever characters the texts contain and whatever other completers stand in front. Where a function is wanted instead, the function does the same.", "quantifier": "all completers with all arguments and all nestings, all earlier functions of the script", "why_tests_cant": "Completers nest without bound, every text is quoted for Fish inside code that is quoted again, and the generator passes state from one completer to the next.", "anchors": ["crazy_complete/fish_complete.py: FishCompleter, FishCompletionCommand, FishCompletionRawCommand, FishCompleteChoices, FishCompleteFile, FishCompleteDirectory, FishCompleteValueList, FishCompleteKeyValueList, FishCompleteKeyValuePair, FishCompleteCommand, FishCompleteCombine, FishCompleteCommandArg", "crazy_complete/shell.py: signal, file_list, directory_list, login_shell"]}
{"id": "C87", "title": "Running the Fish script registers exactly the completions of the definition", "statement": "The generated Fish script runs from start to end, in any state of the shell. Afterwards the program has one entry that turns files off and one entry for each option, positional and set of subcommands, with exactly its names, its description, its flags and its arguments; entries of other commands are as before, old ones of the program and its aliases are gone, the aliases are completed like the program and the program like the command that it wraps. While a line is typed, the entries whose conditions succeed offer exactly the options that may be given there.", "quantifier": "all definitions with all texts in them, all command lines, all earlier entries, conditions as variables or inline, with and without option stacking", "why_tests_cant": "Every text passes the quoting of Fish, conditions are quoted twice and shared through numbered variables, and whether an entry is active depends on the whole line.", "anchors": ["crazy_complete/fish.py: generate_completion, FishCompletionGenerator, FishCompletionDefinition.get_complete_cmd", "crazy_complete/fish_conditions.py: Conditions.get_conditions, get_code", "crazy_complete/fish_utils.py: VariableManager, FishCompleteCommand", "crazy_complete/output.py: Output"]}
{"id": "C88", "title": "The wrapped command's completion sees the line without the program's own options", "statement": "If a program wraps a command, the Zsh completion of that command is called with a line that begins with its name and goes on with the words typed that are neither options of the program nor arguments of such options, in the same order, and with the cursor on the same word. Options are recognised in every form: long and old-style options, alone or with an argument behind = or in the next word, and short options alone, several behind one dash, or with their argument attached.", "quantifier": "all definitions of options, all command lines, all positions of the cursor", "why_tests_cant": "Lines are unbounded, each word decides whether the next one is read at all, and the words are recognised by patterns built from all option names.", "anchors": ["crazy_complete/zsh_wrapper.py: generate_wrapper, _make_long_opts_pattern, _make_short_opts_flag_regex, _make_short_opts_arg_regex, _CODE"]}
{"id": "C89", "title": "Fish completes the argument that is being typed, and not more or less", "statement": "While a word is being typed in Fish, the text handed to completers is the argument: the whole word for an operand and for the argument of the option before it, and what follows the equals sign or the option letter if the argument is in the same word as its option.", "quantifier": "all definitions of options and subcommands, all command lines before the word, all words", "why_tests_cant": "Which part of a word is an argument depends on all options known at that place and on everything typed before.", "anchors": ["crazy_complete/fish_helpers.py: query_init"]}
{"id": "C90", "title": "Lists and prefixes in Fish are completed item by item", "statement": "For a list, Fish is offered exactly the candidates for the item that is being typed, with the items before it kept, and without items already in the list unless duplicates are allowed. Behind a prefix, it is offered the candidates for the rest, with the prefix kept; until the prefix is typed, it is offered the prefix. This holds for lists and prefixes nested in each other.", "quantifier": "all completers made of values, completers of text, lists and prefixes, all texts typed", "why_tests_cant": "Texts and nestings are unbounded, and the helpers communicate through a global variable that each one overwrites.", "anchors": ["crazy_complete/fish_helpers.py: get_completing_arg, list, prefix"]}
{"id": "C91", "title": "Keys with values in Fish are offered if they may still be given", "statement": "For a list of keys with values, Fish is offered exactly the keys that are not excluded by a pair given before, each with its separator if it takes a value, and behind a key and its separator exactly the candidates for the value of that key; everything typed before is kept. For a single pair, likewise without exclusions.", "quantifier": "all definitions of keys, all separators, all texts typed", "why_tests_cant": "Texts are unbounded, and every pair typed changes which keys are left.", "anchors": ["crazy_complete/fish_helpers.py: key_value_list, key_value_pair"]}
{"id": "C92", "title": "A captured variable holds the values of its option", "statement": "If an option is captured in a variable, then while the completion runs the variable is an array with one element for each time the option has been given on the command line, in order: the argument it was given.", "quantifier": "all command trees, all command lines, all options with a variable, in Bash, Zsh and Fish", "why_tests_cant": "Lines are unbounded, arguments are arbitrary texts, and the variable is filled through the parser of the line and the word splitting of the shell.", "anchors": ["crazy_complete/bash_parser.py: _make_long_option_case, _make_short_option_case", "crazy_complete/bash_parser_v2.py: generate", "crazy_complete/bash_utils.py: VariableManager", "crazy_complete/zsh.py: _generate_option_capture", "crazy_complete/zsh_helpers.py: query", "crazy_complete/fish_prepare.py: _get_capture_code", "crazy_complete/fish_helpers.py: capture_option"]}
{"id": "C93", "title": "Running the functions of the Zsh script calls _arguments with the specs of the command reached", "statement": "The text of the completion functions is read by Zsh as one function for each command, with distinct names. Calling the function of the program runs through the functions of the commands named on the line and ends with one call of _arguments, with the configured flags, whose elements are the specs of the options and positionals of the command reached whose conditions hold on the line; together with C71 these offer exactly the options that may be given.", "quantifier": "all command trees, all texts in them, all command lines", "why_tests_cant": "The text is built from arbitrary names, help texts and conditions that Zsh reads again as code, in functions nested to any depth.", "anchors": ["crazy_complete/zsh.py: ZshCompletionFunction, get_code", "crazy_complete/zsh_when.py: generate_when_conditions", "crazy_complete/str_utils.py: indent", "crazy_complete/output.py: Output.get"]}
{"id": "C94", "title": "Keys and values printed by a command are completed as it announces them", "statement": "If the command of key_value_list_exec or key_value_pair_exec prints its keys and values in the format of the manual, each shell offers exactly these: behind a key and the separator the values of the key, before it the keys that no earlier pair excludes, with their descriptions, and repeatable keys again; the command is called with the key whose values are wanted.", "quantifier": "all lists of keys, descriptions, excluded keys and values, all separators, all texts typed", "why_tests_cant": "The lines are split, marked, joined and quoted differently in each shell; any name, description or typed text can meet any of these steps.", "anchors": ["crazy_complete/bash_helpers.py: exec, key_value_pair_exec, key_value_list_exec", "crazy_complete/fish_helpers.py: key_value_pair_exec, key_value_list_exec", "crazy_complete/zsh_helpers.py: exec, key_value_pair_exec, key_value_list_exec", "crazy_complete/manual.py: key_value_list_exec"]}
{"id": "C95", "title": "The text of the Bash command line parser is a program that records what was typed", "statement": "The text generated for the command line parser of a Bash completion script is a Bash program. Running it on any words ends, and leaves in the variable of each option exactly the values given to the option on the line, in POSITIONALS the positional words, in END_OF_OPTIONS whether there was a --, and every other variable as it was.", "quantifier": "all commands, options, subcommands and names, all words before, at and behind the cursor, all values of all variables before", "why_tests_cant": "The text is put together from templates, patterns and names; a test runs a few scripts on a few lines and compares a few variables.", "anchors": ["crazy_complete/bash_parser.py: generate, _PARSER_CODE, _make_long_option_case, _make_short_option_case", "crazy_complete/bash_parser_v2.py: generate, _PARSER_CODE, _make_find_option_code", "crazy_complete/bash.py: _generate_commandline_parsing", "crazy_complete/bash_parser_subcommand_code.py: make_subcommand_switch_code, _make_switch_case", "crazy_complete/bash_utils.py: CasePatterns", "crazy_complete/bash_patterns.py: make_pattern"]}
{"id": "C96", "title": "A completion reads the options from the command line alone and leaves no variable behind", "statement": "When the Bash completion function has declared its variables and called the parser, the variable of each option holds the values given to the option on the line and nothing else, whatever the variables of the shell were before, for example after an earlier completion; every variable other than those of the options, END_OF_OPTIONS and POSITIONALS is as it was. When the function has ended, whatever the rest of it does, the variables of the options, END_OF_OPTIONS and POSITIONALS have the values they had before it was called.", "quantifier": "all command trees, all command lines, all values of all variables before, all line lengths, all programs as the rest of the function", "why_tests_cant": "A test starts from a fresh shell; what is left over by earlier completions or by the user can be anything.", "anchors": ["crazy_complete/bash.py: BashCompletionGenerator._generate_commandline_parsing", "crazy_complete/str_utils.py: join_with_wrap", "crazy_complete/algo.py: uniq", "crazy_complete/bash_utils.py: VariableManager.capture_variable"]}
{"id": "C97", "title": "A program that wraps another command is completed with both", "statement": "In Bash, completing a line of a program that wraps a command first runs the completion of the wrapped command on the line in which the program is replaced by it, with the cursor at the same distance behind it, then the program's own completion on the line as it was typed; the suggestions of both are offered, first those of the wrapped command; the variables that Bash keeps for the line are the typed ones again, and no variable of the wrapper is left behind. A program that wraps nothing is registered with its own function.", "quantifier": "all names of programs and wrapped commands, all lines and places of the cursor, all completion functions that leave the variables of the wrapper alone, all states of the shell before", "why_tests_cant": "what the wrapped command's completion does is not known, and it may use any variable; the line and the name by which the program was called are arbitrary", "anchors": ["crazy_complete/bash.py:_generate_wrapper", "crazy_complete/bash.py:generate_completion", "crazy_complete/bash_versions.py:command_offset", "crazy_complete/bash_versions.py:completion_loader"]}
{"id": "C98", "title": "The functions of the Bash script call each other as the command line says", "statement": "In the Bash script the function of a command looks at the positional that holds its subcommand; when a subcommand is typed there (by its name, an alias or an allowed abbreviation) the function of that subcommand completes the line, and the command itself does so too when the subcommand finds nothing and the command passes its options on; when no subcommand is typed there, or the word is none, the command completes the line itself. Every function that is called is defined, functions of different commands have different names, and the script registers the function of the program for the program and its aliases.", "quantifier": "all trees of commands, all prefixes of function names, all sequences of positionals, everything the functions do for themselves", "why_tests_cant": "the text of each function depends on the whole chain of commands above it, and which function runs depends on the words typed; trees are arbitrarily deep and wide", "anchors": ["crazy_complete/bash.py:BashCompletionGenerator._generate_subcommand_call", "crazy_complete/bash.py:generate_completion", "crazy_complete/bash_versions.py"]}
{"id": "C99", "title": "A run of the program changes what it was asked to change and nothing else", "statement": "A run that succeeds has put the text made of the definition at the place that was asked for (the screen, the output file, the system's directory for the shell, or it has removed the installed file), and nothing else has changed; a run that fails has changed nothing; at every moment in between only that file is different, and holds what it held or a beginning of the text. Code of a definition file is executed only if a Python file was asked for. Installing and uninstalling leaves everything as it was. A batch does its jobs in order until one fails, and the exit status is 0 exactly if everything was done.", "quantifier": "all options, all contents of all files, all definitions, all moments at which the program may be interrupted, all lists of jobs in a batch", "why_tests_cant": "what is on the disk, when the program is interrupted and what ran before in the same process are arbitrary; a test sees one history", "anchors": ["crazy_complete/application.py:generate", "crazy_complete/application.py:load_definition_file", "crazy_complete/application.py:try_batch", "crazy_complete/application.py:write_string_to_file", "crazy_complete/paths.py", "crazy_complete/file_loader.py:import_file", "crazy_complete/argparse_source.py:load_from_file", "crazy-complete"]}
{"id": "C100", "title": "Command line options become exactly the settings they name", "statement": "Every option of the program sets the setting it names to its value and no other; a feature is disabled exactly if it is listed; without a positive line length lines are unbounded; versions, lists of features, booleans and file extensions are read as they are written, and anything else is refused.", "quantifier": "all combinations of options and all texts of their values", "why_tests_cant": "there are more combinations of options than can be tried, and the values are arbitrary texts", "anchors": ["crazy_complete/application.py:_get_config_from_options", "crazy_complete/application.py:boolean", "crazy_complete/application.py:version", "crazy_complete/application.py:feature_list", "crazy_complete/config.py:Config"]}
{"id": "C101", "title": "Suggestions marked as unsorted keep their order in Zsh, and only these", "statement": "In Zsh, the suggestions for the argument of an option or for a positional keep the order of the completer exactly if the definition says nosort for it, in every command of the program and under every name of the program.", "quantifier": "all command trees, all options and positionals in them, all contexts in which Zsh asks for the style", "why_tests_cant": "The script sets patterns that Zsh compares with the context of every completion; which contexts a pattern catches depends on all other names in the definition.", "anchors": ["crazy_complete/zsh.py:get_zstyles", "crazy_complete/zsh.py:generate_completion"]}
{"id": "C102", "title": "Running the generated Bash code offers exactly the option strings that can still be given", "statement": "The text written into the Bash script for offering option strings can be read by Bash; running it for a word that begins with a dash adds to the suggestions exactly the option strings that have to be offered there, returns from the function exactly then, and asks for no space behind the word exactly if the first suggestion ends with an equals sign.", "quantifier": "all commands with all their options, groups, final options and when conditions, all contents of the arrays, all words at the cursor", "why_tests_cant": "The text is assembled from conditions that are quoted, joined, sorted, grouped by their text and indented; whether Bash reads it as intended depends on every name and value in the definition and every state of the line.", "anchors": ["crazy_complete/bash_option_strings_completion.py:generate", "crazy_complete/bash_when.py:ConditionGenerator"]}
{"id": "C103", "title": "Running the generated Bash code completes the positional that stands at the cursor", "statement": "The text written into the Bash script for completing positionals can be read by Bash; running it runs the code of a positional that may stand at the place of the cursor and whose when condition is true (the first one if there are conditions), otherwise, at the place of the subcommand, the code that completes the names of the subcommands, and otherwise nothing; it returns from the function exactly if it ran something.", "quantifier": "all commands with all their positionals, when conditions and subcommands, all completion codes of the positionals, all contents of the arrays", "why_tests_cant": "The text is assembled from conditions and foreign code that is indented and grouped; whether Bash enters the intended block depends on every number, condition and code in the definition and every state of the line.", "anchors": ["crazy_complete/bash_positionals_completion.py:generate", "crazy_complete/bash_when.py:ConditionGenerator"]}
{"id": "C104", "title": "Calling the generated Bash function completes the argument of the option that was named", "statement": "The function written into the Bash script for completing the arguments of options can be read by Bash; calling it with an option string, a word and a mode runs the code of the option with that string if its when condition is true and its argument is required or the mode asks for optional arguments too, runs nothing else, passes the word, and succeeds; otherwise it runs nothing and fails. The function is written exactly if an option takes an argument.", "quantifier": "all lists of options that take arguments with all their strings, when conditions and completion codes, all arguments of the call, all contents of the arrays", "why_tests_cant": "The text is a sequence of case commands with patterns that are compressed, conditions and foreign code that is indented and grouped; whether Bash reaches the intended clause depends on every string, condition and code in the definition and every state of the line.", "anchors": ["crazy_complete/bash_option_completion.py:MasterCompletionFunction", "crazy_complete/bash_option_completion.py:MasterCompletionFunctionNoWhen", "crazy_complete/bash_option_completion.py:_get_master_completion_obj"]}
{"id": "C105", "title": "The generated Bash code finds the option whose argument is being typed", "statement": "The case commands written into the Bash script for the word before the cursor's word and for the cursor's word can be read by Bash; running them calls the function that completes arguments with the option string and the value that the word before it, a long or old-style option with an equals sign, or a cluster of short options gives, in this order, ends with the first call that succeeds, and puts the typed part of a cluster in front of what was found.", "quantifier": "all sets of short, long and old-style options with required, optional or no argument, all words, all results of the calls", "why_tests_cant": "The patterns are built from the letters of all options and the old-style strings, clauses fall through to the next one and a loop cuts the word at every letter; what runs depends on all of these together with every possible word.", "anchors": ["crazy_complete/bash_option_completion.py:_get_prev_completion", "crazy_complete/bash_option_completion.py:_get_cur_completion", "crazy_complete/bash_option_completion.py:_get_dispatcher", "crazy_complete/bash_option_completion.py:generate_option_completion"]}
{"id": "C106", "title": "The arguments of a command that is an argument itself are completed by that command", "statement": "In Bash, if one positional of a command is the name of another command and the next one is its arguments, then everything that is typed from there on is completed as if the line began with that other command, at its own word; options and other positionals of the program are not offered.", "quantifier": "all command trees, all lines that use options as they allow, all words at the cursor and after it, both versions of the parser of the line", "why_tests_cant": "Where the other command stands in the line depends on the options, their arguments and the subcommands before it, and the line is arbitrary.", "anchors": ["crazy_complete/bash.py:BashCompletionGenerator._generate_command_arg_call", "crazy_complete/bash.py:BashCompletionGenerator._generate"]}
{"id": "C107", "title": "The functions of the Bash script contain every piece of code, in order, and end where they should", "statement": "In the generated Bash script the function of each command begins with its name and goes up to the first line that is only a closing brace; in between are exactly the lines of the pieces of code written for the command (setting up, reading the line, calling subcommands, handing over, option arguments, option strings, positionals), in this order, indented by two blanks, with an empty line between two pieces, and at last `return 1`. No piece of code, whatever it contains, ends the function or swallows the next one.", "quantifier": "all sequences of functions, all texts of the pieces, all combinations of missing pieces", "why_tests_cant": "The pieces contain code of the user and are arbitrary texts; a line in one of them could end the function.", "anchors": ["crazy_complete/bash.py:BashCompletionGenerator._generate", "crazy_complete/str_utils.py:indent", "crazy_complete/output.py:Output"]}
