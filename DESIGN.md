# Formal model of crazy-complete: design

## Layout

* `lean/Verif/Model/*.lean` - the model: small total computable functions that follow the
  Python functions branch by branch. Every definition cites the file and lines it models
  and says where it simplifies.
* `lean/Verif/Spec/*.lean` - independent specifications: how the shells read words, patterns,
  option specs and conditions, what a command line means, how a help text is laid out.
  They use the data types of the model but not its functions.
* `lean/Verif/Lemmas/*.lean` - helper lemmas.
* `lean/Verif/Props/*.lean` - the property theorems. A theorem named `Cnn_...` belongs to
  property `Cnn` of `properties.jsonl`. Beside them are theorems `Cnn_example...` that show a
  concrete case meeting the hypotheses, and theorems with witnesses where the code
  does not have the property.
* `MANIFEST.json` - status of each property and its theorems; `AXIOMS.md` - the axioms each of
  these theorems depends on; `seeded/LOG.jsonl` - experiments with wrong programs.

## Conventions

* A Python `str` is `List Char` (`Str`): Unicode scalar values. Lone surrogates are not modelled.
* Exceptions are values: `Except Err a`. A Python crash (IndexError, KeyError, AttributeError,
  TypeError) is the constructor `crash`, never hidden behind a default value.
* Loops are structural recursion or recursion with a counter. Where there is a counter, the
  counter is the size of the input and a lemma shows that it suffices, or running out of it is a
  visible result.
* Object identity is replaced by structural values. Where identity matters (shared containers
  of the YAML parser, `parent` links of commands) it is modelled: a heap, and addresses in a tree.
* Code in shell languages that the program emits (the query helpers, the Bash parsers, the
  `case` tables) is modelled as the function the shell computes when it runs that text. How the
  shell reads text is in `Spec/`.
* A property that the code does not have is kept in `properties.jsonl` as a user would expect it.
  Its negation is proved for a concrete witness, and the theorem with the suffix `_partial` has
  the extra hypothesis under which it holds.

## Trusted base

* Lean 4.33.0's kernel.
* The axioms `propext`, `Classical.choice` and `Quot.sound`, or fewer; `AXIOMS.md` lists them for
  every property theorem (`#print axioms`). No axioms are added; there is no `sorry`, no
  `native_decide`, no `bv_decide`. `decide` and `decide +kernel` are used only for concrete
  witnesses, examples and finite character facts. `kernel_rfl` (`Lemmas/KernelRfl.lean`) is `rfl`
  checked by the kernel alone.
* The correspondence between the Python source and the definitions in `Model/`. It is by
  reading; the project was not run.
* The specifications in `Spec/` of how Bash, Zsh, Fish and Python's `re` read text.

## What is modelled

| source | model | not modelled |
|---|---|---|
| `algo.py` | all | |
| `argparse_source.py`, `argparse_mod.py` | conversion of a parser; loading the Python file (C99) | finding the parser in a module, warnings |
| `bash.py` | choice of completion functions by `Helpers`; the function of a command and the calls of subcommands (C66, C67); the wrapper (C97); the text of the calls and the functions of the script (C98), of the handing over (C106) and of the functions around their pieces (C107) | the first lines of the function of the program, which set up the words |
| `bash_option_completion.py`, `bash_positionals_completion.py` | all but the quoting of patterns; the second (C103) and the first (C104, C105) also as text | letters that are special inside brackets |
| `bash_complete.py`, `bash_versions.py` | all completers and completion objects (C63, C78) | - |
| `zsh_complete.py` | all completers and completion objects (C63, C85) | - |
| `bash_helpers.py`, `zsh_helpers.py`, `fish_helpers.py` | the `query`, `values` and `subcommand` helpers; of Bash also `dequote`, `prefix`, `strip_prefix_keep_quoting`, `get_last_break_position`, `value_list`, `key_value_list`, `key_value_pair`, `array_contains`, `commandline_string`, `parse_line`, `get_prefix_suffix_len`; of Fish also the end of `query_init`, `get_completing_arg`, `list`, `prefix`, `key_value_list`, `key_value_pair`; of all three shells `exec`, `key_value_list_exec`, `key_value_pair_exec`; names and dependencies of all functions | the bodies of the other functions |
| `bash_option_strings_completion.py`, `bash_when.py` | all, as tokens (C08, C47) and as text (C102) | |
| `bash_parser.py`, `bash_parser_v2.py`, `bash_parser_subcommand_code.py` | the loops and tables they emit, and their text (C95) | |
| `bash_patterns.py` | all | |
| `bash_utils.py` | variable names, extension pattern, `CasePatterns` (C95, without `for_old_without_arg`), `capture_variable` | |
| `messages.py`, `manual.py`, `type_utils.py` | - | constants, texts |
| `application.py`, `paths.py`, `file_loader.py` | all but the definition of the argument parser (C99, C100) | `argparse`, `shlex`, `pkg-config`, Python's import of anything but files `name.py`, the error output |
| `cli.py` | all but `__repr__` and type checks of constructor arguments that only raise | |
| `compat.py` | all | |
| `completion_validator.py` | whole: the definitions made of a command line and their validation (C73) | text of messages |
| `config.py` | all (C100) | type checks |
| `dictionary_source.py`, `json_source.py` | all | reading files |
| `extended_yaml_parser.py`, `value_with_trace.py` | events to values | PyYAML's event stream, positions |
| `fish.py` | the `complete` commands: option names, conditions, targets (C68, C69); the text of the script from `set -l prog` on: conditions as text, variables, descriptions, flags, blocks, `wraps`, aliases (C87) | the notice, comments of the configuration, included files, the code of the helper functions, the modeline |
| `fish_complete.py` | all completers and completion objects (C12, C63, C86) | - |
| `fish_conditions.py`, `fish_prepare.py`, `fish_utils.py` | all | |
| `generation.py` | `apply_config`, abbreviations, function names | writing the output |
| `help_converter.py`, `help_parser.py` | all functions; the text is taken as `open` delivers it | reading the file; `str.lower` beyond ASCII |
| `helpers.py`, `output.py`, `preprocessor.py`, `str_utils.py`, `shell.py` (quoting), `shell_parser.py`, `string_stream.py` | all | the completer classes of `shell.py` are modelled with each shell |
| `pattern.py` | both converters | |
| `scheme_validator.py` | all checks, in order | texts of messages |
| `utils.py` | abbreviations, `get_all_command_variations`, query strings, `get_defined_option_types`, `is_worth_a_function` | terminal output |
| `when.py`, `zsh_when.py` | all | |
| `yaml_source.py` | defines, loading, the text of the export (with `json.dumps`) | reading YAML text with PyYAML: `Spec/YamlText.lean` is a specification of a subset |
| `zsh.py`, `zsh_utils.py` | option and positional specs, escaping (C52, C53, C59); the functions: which specs they pass under which conditions, when they parse the line, which function they call (C70-C72); the text of the functions (C93) | the script before and after the functions except `zstyle` (C101) |
| `zsh_wrapper.py` | patterns and regular expressions, the chain of tests, the loops over `words` and `CURRENT` (C88) | the text of the template around them, quoting of `wraps` |

## Properties: what is modelled, how it is proved, where the code disagrees

| id | what is modelled | how it is proved | disagreement found (theorem) |
|----|------------------|------------------|------|
| C01 | `quote`, `needs_quote` | induction over the string against a POSIX word reader (states unquoted / single / double) that fails on anything a shell would expand | |
| C02 | `join_quoted` | the reader lemma of C01 composed over lists | |
| C03 | `quote` against a Fish reader | partial: strings without the combinations Fish treats otherwise | backslashes in single quotes and backquotes in double quotes (C03_*) |
| C04 | `make_identifier` | the three passes as list functions; invariants by induction | |
| C05 | `escape_in_double`, `make_condition_command` | Fish double-quote reader inverts the escaping | backquotes |
| C06 | `Lexer`, `make_commands`, `StringStream` | lexer run on quoted text by induction | |
| C07 | `check_syntax` as a state machine | equivalence with an inductive grammar where true | `a &&`, `!`, `(a) b` are accepted |
| C08 | `ConditionGenerator.generate`, `needs_braces`, `positional_contains`, `option_is` | deep embedding of and-or lists with `{ }`; evaluator of the shell grammar against the boolean value of the expression | position 0, empty values; the shells disagree on `option_is` with several options (C08_shells_disagree) |
| C09 | `Conditions` of Fish | as C08 plus permutation of conjuncts | values listed twice |
| C10 | `when.py` argument parsers | exact shape of what is accepted | |
| C11 | `bash_patterns.py` | denotational semantics of extglob; language of the trie = inserted set | runs of several digits, glob characters, quoted names |
| C12 | extension patterns | language semantics | special characters are not escaped |
| C13, C14 | `pattern.py` | denotational semantics of globs and of Python's regular expressions; the converter's output is read by the specification's reader and has the same meaning | backslash, caret, `[!(`, `$`, quoted `-` in brackets; crash on a leading `!` or stray `]` |
| C15 | option string predicates | case analysis, all strings | |
| C16 | `OptionsGetter`, key | induction over the list of parents | |
| C17 | `get_conflicting_options` | membership characterisation | ValueError for an option that was never added |
| C18 | `get_positional_index` etc. | induction over ancestors | a positional added after the subcommands leaves a stale number |
| C19 | `visit_commandlines` | mutual induction over the tree | |
| C20 | `copy`, `__eq__` | invariant over histories of API calls | |
| C21 | `_apply_config` | induction over the tree | |
| C22 | `SubCommandsOption` | invariant over operation sequences | |
| C23 | `get_options_by_option_strings` | induction | |
| C24, C25 | abbreviation generators | membership characterisation | alias equal to an abbreviation |
| C26, C27 | `dictionary_source.py` | round trip over trees; exact acceptance condition | empty completer lists and empty subcommands are lost |
| C28 | defines | induction over documents | names are replaced in `prog` too |
| C29 | `handle_event` with a heap | induction over the document tree | bare scalar documents are dropped |
| C30 | `compat.py` | case analysis, all values | |
| C31 | `range_to_complete` | integer arithmetic | empty ranges |
| C32 | `argumentparser_to_commandline` | induction over the actions and subparsers | positional after subparsers |
| C33-C35 | `scheme_validator.py` | what an accepted document satisfies, and the converse | definitions below the direct subcommands; stale trace |
| C36 | `preprocess` | stack machine against a block-structured grammar | |
| C37-C39 | `str_utils.py` | list induction | removing blank lines is not idempotent |
| C40, C41 | `algo.py` | list induction; histories | |
| C42-C44 | `helpers.py`, function names | invariants over histories; closure; injectivity | clash with built-in names; equal names after replacing hyphens |
| C45, C46 | Bash parsers | the emitted loop with the emitted `case` tables as data, against a specification of well-formed command lines | five kinds of lines; command name that is the beginning of a sibling |
| C47 | option strings completion | decision logic for all states, from the words typed | unreadable script without visible options |
| C48 | variable names | exact condition for identifiers; injectivity | collisions, invalid names |
| C49 | query strings | round trip | option strings with `=` |
| C50, C51 | `fish_utils.py` | histories | |
| C52, C53, C59 | `zsh_utils.py`, `zsh.py` | readers of `_arguments` specs; round trip | backslashes, empty metavar, trailing dash |
| C54, C62 | `help_parser.py` | coverage by induction with progress; round trip from a layout | crash at the end of the text |
| C55 | `output.py` | list induction | |
| C56 | `replace_function_name` | text with and without prefix | prefixes with hyphens |
| C57, C58 | query helpers of Zsh and Fish | run of the helper on every well-formed line | quoted words after `--`; options of the program after a subcommand |
| C60, C61 | validator errors, loading | every check raises only schema errors; acceptance implies import | five ill-typed documents; null, names, nesting |
| C63 | `choices` | the emitted text is read by specifications of `compgen -W`, `_arguments` actions, `_describe`, `complete -a` and `printf` | empty choice in Bash; integers and backslashes in Zsh functions; equal texts in Fish |
| C64 | `get_defined_option_types` and the parts of the query helpers chosen by it | fold over the tree; simulation between the reduced and the complete parser | `=` in option strings; `-o=x` in Fish |
| C65 | `file_list`, `directory_list` and the completers that contain others, with dictionaries that have addresses | the heap after each step, by mutual induction; the exact condition | shared defines; a second script from one command line |
| C66 | `__complete_option`, the dispatcher and the functions of commands as data with a meaning; the parsers of C46 | case equations of the dispatcher; induction along the chain of commands; composition with C46 | only optional arguments; old-style flags; words after `--`; inherited options; see the witnesses |
| C67 | the positional and subcommand part of the functions | as C66, with the place counted by the specification | a word that is already a name; words after the cursor after `--`; `command_arg` |
| C68 | `FishCompletionGenerator`: the conditions of every `complete` command, `_fix_command_arg` over the tree; Fish applies a command iff its conditions succeed; the parser of C58 | exact conditions of a command (C09, C17, C40); path conditions by uniqueness of the command reached; places by widths | options before a positional; command arguments of siblings; equal alias; `---x`; final options of subcommands; arguments of inherited options |
| C69 | the `complete` commands of positionals and subcommands | as C68 | repeatable positionals before subcommands |
| C70 | `ZshCompletionFunction`: the query of each function, the call of the function of a subcommand; the parser of C57 | induction along the chain of commands: each function sees a prefix of the line that is valid for it | kinds that change; conditions on positionals only; the word at the cursor |
| C71 | the option specs and their conditions; a reader of specs and a specification of `_arguments` (which options it offers after which given ones) | the specs read back (C53), then equivalence of exclusion lists with C17 | inheritance decided by the child; given options with false conditions; final options of parents |
| C72 | the positional and subcommand specs; the specification of `_arguments` for normal arguments | as C71; places by widths | repeatable positionals of two commands, or before their place |
| C73 | `validate_commandlines`, with the whole of `enhance_commandline` (C21), the validator (C60) and the import (C27) | what each check accepts of the entries of an object; inversion of the import; the effect of the configuration on each attribute; induction over the tree | hidden options made repeatable, conditions deeper than the validator looks, names with other white space than blanks |
| C74 | as C73, for every command line that the API can build | the second validation accepts exactly the objects of a specification; completers by C35 | commands below the direct subcommands, names with blanks |
| C75 | `option_to_yaml`, `positional_to_yaml`, `to_yaml`, `commandline_to_yaml`, `json.dumps`; a specification of the YAML subset (block mappings of flow values, one block sequence per key) | JSON of a value is read back by induction on the value; line by line through the document | characters from U+10000 on, floats without a point, keys that are not strings |
| C76 | `from_file_to_yaml`, `fix_description`, `strip_metavar`, `complete_for_metavar`, `get_program_name_from_help` | what an option should say is a separate specification (`HelpYamlSpec`); reading by the YAML subset of C75, item by item; characters of items come from the text by C54 | conditions on characters, see the witnesses |
| C77 | the same, `validate`, `dictionaries_to_commandline` | an option that says what its item says is accepted; then C61; option words of the parser are valid option strings | the completer `cmd`, no options at all, unusual white space |
| C78 | all of `bash_complete.py` as functions from completers to code (`Model/BashComplete.lean`), over a typed syntax of completers (`Model/Completers.lean`) | a reader for the part of Bash that the code uses (`Spec/BashCode.lean`) and a specification of the commands of each completer (`Spec/BashCompleterSpec.lean`); mutual induction on the completer, one lemma for each kind of line | `login_shell` and `filesystem_type` with bash-completion 2.12; code of `exec_internal` that the reader does not cover |
| C79 | the same model | an interpreter for the statements of the Bash reader (`Spec/BashExec.lean`), the called commands are a parameter; every completer's code keeps some of the earlier results and adds its own (`OrdinaryCode`), which is closed under sequence; induction on the completer | `exec_internal`, `prefix`, own `PATH`, lists of completers that keep earlier results: false, with witnesses |
| C80 | `dequote` as a function on texts, loops as states (`Model/BashWords.lean`) | a reader for typed words with open quotes (`Spec/TypedWord.lean`); induction on the text | continued lines, useless backslashes in double quotes: false, with witnesses |
| C81 | `prefix`, `strip_prefix_keep_quoting`, `get_last_break_position`; the inner completer and `compgen` are parameters | the loop over the prefix follows the reader; `Typed.accept` says what the line editor makes of an offer | empty prefixes, `echo` options, breaks inside the prefix: false, with witnesses |
| C82 | `value_list`, `read -a` for fields (`Model/BashValueList.lean`) | fields against items (`Spec/ItemList.lean`), then case by case; both directions | a break in the current item, empty values with blanks: false, with witnesses |
| C83 | `commandline_string`, `parse_line`, `get_prefix_suffix_len` (`Model/BashLine.lean`); bash-completion's function is a parameter | induction on the line with the state of `parse_line`; the overlap is the longest, by induction on its length | quotes inside the line: false, with a witness |
| C84 | `key_value_list`, `key_value_pair` (`Model/BashKeyValue.lean`); the completers of the keys are a parameter | what the helper strips is what the line editor keeps (`break_strip`); pairs against `Spec/KeyValues.lean`, both directions | other break characters, mixed quoting, keys with blanks: false, with witnesses |
| C85 | all completers of Zsh as objects with an action and a function (`Model/ZshComplete.lean`) | mutual induction on the completer: the action is one word, read by a reader for code (`Spec/ZshCode.lean`), and does what `Spec/ZshCompleterSpec.lean` says; generation fails only for untranslatable globs and integers in lists of choices | keys that are not plain, colons in values, words that begin with `=`, newlines in combinations: false, with witnesses |
| C86 | all completers of Fish as objects with code, a function and arguments of `complete`; the shared list `trace` is threaded as state (`Model/FishComplete.lean`) | mutual induction on the completer: the code is read by a reader for Fish (`Spec/FishCode.lean`) and does what `Spec/FishCompleterSpec.lean` says; generation fails only for untranslatable globs | dates, conditions of `key_value_pair`, directories behind a prefix, empty choices, double backslashes: false, with witnesses |
| C87 | the text of the script (`Model/FishFile.lean`): condition texts in double quotes, variables `C000`…, `complete` commands, head, blocks and aliases | a reader for Fish (`Spec/FishCode.lean`) and a run of `set` and `complete` (`Spec/FishRun.lean`); induction over the lines of a command (the variables hold the condition texts) and over the commands; a condition succeeds iff its tokens, read back from the text, are true; with C68 the entries active on a line offer exactly what may be given | names, aliases and `wraps` are not quoted, an alias equal to the program erases everything: false, with witnesses |
| C88 | `zsh_wrapper.py` (`Model/ZshWrapper.lean`) | readers of Zsh patterns and POSIX expressions, own options and stripped lines as relations (`Spec/ZshWrapperSpec.lean`); each test matches exactly its words, hence the chain recognises exactly own options; induction over the line | special characters, `--`, cursor on an own option (witnesses) |
| C89 | the end of `query_init` (`Model/FishCurrent.lean`) | `Spec/Typing.lean` says what a word is meant to be; builds on `C58_parse` | operands containing letters of options, words behind `--` (witnesses) |
| C90 | `get_completing_arg`, `list`, `prefix` as functions of the text and the global variable (`Model/FishLists.lean`) | `Wanted` by recursion over the completer (`Spec/FishLists.lean`); a relation `Right` between output and text, one lemma per helper | values typed completely, deeper nesting, wildcards as separators (witnesses); Fish shows candidates that begin with the text (no fuzzy matching) |
| C91 | `key_value_list`, `key_value_pair` (`Model/FishKeyValue.lean`) | `PairsWanted` (`Spec/FishKeyValues.lean`); keys left over are those no pair excludes; values by `Right` of C90 | keys typed completely, values with the separator (witnesses) |
| C92 | capturing of options: the arrays of the Bash parsers, `get_option` and the word splitting of Zsh, `capture_option` (`Model/Capture.lean`) | `occurrences` (`Spec/Captured.lean`) and the records of C46, C58; splitting by induction | Zsh splits at `$`, `\` and `n` instead of newlines; shared variables in Fish; names with `OPT_` in Bash |
| C93 | the text of the functions of the Zsh script (`Model/ZshFile.lean`): conditions as text, `local`, `case`, the array of specs, `_arguments`, indentation | a reader and an interpreter for the subset of Zsh used (`Spec/ZshText.lean`: tokens, logical lines, statements, functions, runs); each line is read back by composing lemmas about pieces that add a word (`Adds`); the run follows `zshComplete` by induction over the commands reached; with C71 what is offered | a help text on two lines is changed, subcommands `esac` and `=x`: false, with witnesses; captured options are outside the reader |
| C94 | `exec`, `key_value_pair_exec`, `key_value_list_exec` of the three shells (`Model/ExecHelpers.lean`); the output of the command is a parameter | the lines that the manual describes are a function of the keys (`Spec/KeyLines.lean`); what each shell reads of a line is proved to be the key again, then C84 (Bash), C91 (Fish) and the reader of definitions of C85 (Zsh) apply | empty descriptions, stars in Zsh, `eval` of typed text, separators other than `=`, shifted descriptions in Fish: false, with witnesses |
| C95 | the text that `bash_parser.py`, `bash_parser_v2.py` and `bash_parser_subcommand_code.py` generate (`Model/BashFile.lean`), character by character, and the choice between the two | a reader and an interpreter for the part of Bash that the text uses (`Spec/BashText.lean`: lines, words, `case`, `for ((`, `if [[`, arrays, local variables, functions) are written without looking at the generator; the reader is proved to give the intended program for every command line with plain strings (`Lemmas/BashRead*.lean`), then running it is proved to simulate `bashParseV1` and `bashParseV2` step by step (`Lemmas/BashRun*.lean`), then C46 applies; for version 2 the filled template is proved to be what `preprocess` makes of the template of the code for all 32 choices of parts | strings with special characters, `esac`, captured variables named like those of the parser: false, with witnesses; the changes that `get_code` makes to the text |
| C96 | the lines of the completion function that declare the variables and call the parser, `_generate_commandline_parsing` (`Model/BashParsing.lean`), as text | read and run with `Spec/BashText.lean`, `Spec/BashParsed.lean`; the wrapped lines `local -a …` are read back to the list of names with the lemma on `join_with_wrap` (C38); C95 is applied in the environment after the declarations; that nothing is left behind follows from the invariant that running a program only adds to the list of saved values, for any program as the rest of the function and any functions |
| C97 | `_generate_wrapper` and the registration line of `bash.py`, as text (`Model/BashWrapper.lean`) | a reader of such functions line by line and what Bash does with each line, with pattern substitution as the language of a glob (`Spec/BashWrapping.lean`); the generated text is proved to be read as fourteen statements for all names, then these are run in an arbitrary environment with arbitrary functions for the wrapped command and the program | the called name is used as a pattern, the wrapped name is not quoted in the first line: false, with witnesses |
| C98 | the call of subcommands as text and the functions of the script (`Model/BashScript.lean`) | a reader of the `if` and `case` lines and what Bash does with them (`Spec/BashCalls.lean`), the script as a list of functions that call each other, the last definition of a name counting; what should be suggested is a relation on the tree (`Spec/BashScriptSpec.lean`); the generated text is proved to be read as a dispatch for every command, then by induction over the relation the call of the program's function gives that answer | functions with the same name, functions registered but not defined, quoted names and `esac`: false, with witnesses |
| C99 | `application.py` (`generate`, `load_definition_file`, `try_batch`, `parse_args`), `paths.py`, `file_loader.py`, the script `crazy-complete` (`Model/Application.lean`) | a run is a list of actions on the files, the screen and the modules of the process; an interruption leaves a prefix. What is asked for is a relation between options, files, text and place (`Spec/ApplicationSpec.lean`); a run is proved to be either without actions and failed, or the actions for that text and place. Batches by induction over the lines | truncation before writing, ignored switches, modules with the same name, `sys.exit` in a Python file, batches in batches: false, with witnesses |
| C100 | `_get_config_from_options`, `Config`, `boolean`, `version`, `feature_list`, the extension (`Model/Application.lean`) | the settings asked for are a structure of one equation per field; the code computes the only settings that satisfy it. Values by round trip | |
| C101 | `get_zstyles` of `zsh.py` (`Model/ZshStyles.lean`) | the text is read back by the reader of words into settings, a pattern is read by the reader of Zsh globs, a context is the text Zsh builds from its parts (`Spec/ZshStyles.lean`); where a pattern matches is found by cutting both at the colons | longer names, `-?`, operands of subcommands, repeatable positionals, aliases: false, with witnesses |
| C102 | the text of `bash_option_strings_completion.py` and `bash_when.py` (`Model/BashOptionText.lean`) | the text is read line by line with the reader of shell words and lists and run (`Spec/BashOffers.lean`); every condition is read as the tokens of C47 and has their value, equal texts have equal values, so grouping by text changes nothing; then the lines, the indentation and the `if`s | option strings with characters special to `compgen -W` and line breaks in values of `when` are excluded; an empty body of `if`: false, with witness |
| C103 | the text of `bash_positionals_completion.py` (`Model/BashPositionalText.lean`); the code of a positional is any text | the text is read as blocks whose condition is a list of commands (`Spec/BashBlocks.lean`); no line of indented code is `}`, so the blocks are found whatever the code is; the conditions are read and have the value of the place and of C08; grouping by code keeps the places | the code of a positional is not interpreted (C78 to C84 do) and has to consist of complete commands; order without conditions: false, with witness |
| C104 | the text of `__complete_option` (`Model/BashMasterText.lean`); the code of a completer is any text | the text is read by columns as statements and clauses (`Spec/BashArms.lean`); the code of a clause is deeper than the clause, so the clauses are found whatever the code is; the patterns match the strings (C11) and the conditions are read and have the value of C08; then running the statements is a simulation of the model that C66 is about | the code of a completer is not interpreted (C51 ff. do) and has to consist of complete commands; only optional arguments: false, proved |
| C105 | the text of the dispatcher (`Model/BashDispatchText.lean`); the functions that it calls are given, or `__complete_option` is the text of C104 | the text is read by columns as `case` commands, clauses, calls and the loop (`Spec/BashDispatch.lean`); the patterns with brackets and `*( )` match the clusters of letters that the model describes; then selecting a clause, `;&` and the loop are a simulation of the model of C66 | letters that are special inside brackets: false for `!`, proved; for the commands of a definition whose option strings are plain the other conditions follow (`C105_command_partial`), and with the lemmas of C66 it is said which code runs for which words |
| C106 | `runCommandArg` in the function of a command (`Model/BashFunction.lean`), with the parsers of C66; the text of `_generate_command_arg_call` (`Model/BashCommandArgText.lean`) and a reader of it (`Spec/BashHandOver.lean`) | the written text, read and run, does what `runCommandArg` says (C106_text); the line that the parser leaves is the one of C66 and C67; the function that is reached finds the first word of the line that equals the positional before, which is the place of the command if the word does not occur before | false if the word occurs before or the first argument looks like an option, proved; how `_command_offset` of bash-completion goes on is not modelled |
| C107 | the function text and the order of its pieces in `_generate` (`Model/BashFunctionText.lean`) and the functions of all commands (`Model/BashFunctionsText.lean`); the pieces are any texts | the lines of the script are read as functions (`Spec/BashFunctionLines.lean`); no indented line is only a closing brace, so each function ends at its own; induction over the functions | what the pieces are is modelled elsewhere (C66, C95, C98, C102 to C106); the words on indented lines may change if a quoted word has a line break, proved |
