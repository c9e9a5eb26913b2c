import Verif.Model.BashParser
import Verif.Model.BashPatterns
import Verif.Model.StrUtils
/-!
# Model of the text of the Bash command line parser

`bash_parser.py`, `bash_parser_subcommand_code.py` and `CasePatterns` of `bash_utils.py`: the text of `parse_commandline`
in version 1. `Block`, `BOpt` and `SwitchCase` (`Model/BashParser.lean`) are what the generators know of the command line.
Simplification: the placeholders of the template are filled in by concatenation (a text that is put in and holds another
placeholder is not covered).
-/

namespace CC

/-- `_make_long_option_case`, `bash_parser.py` 108-130, with `CasePatterns.for_long_without_arg` and `for_long_with_arg`,
`bash_utils.py` 57-66. -/
def v1LongText (o : BOpt) : Str :=
  let without := joinWith ['|'] o.longs
  let with_ := joinWith ['|'] (o.longs.map (fun l => l ++ ['=', '*']))
  match o.kind with
  | .optional => without ++ S ")\n" ++ S "  " ++ o.var ++ S "+=(_OPT_ISSET_);\n" ++ S "  continue;;\n" ++
      with_ ++ S ")\n" ++ S "  " ++ o.var ++ S "+=(\"${arg#*=}\")\n" ++ S "  continue;;"
  | .required => without ++ S ")\n" ++ S "  " ++ o.var ++ S "+=(\"${words_dequoted[++argi]}\")\n" ++ S "  continue;;\n" ++
      with_ ++ S ")\n" ++ S "  " ++ o.var ++ S "+=(\"${arg#*=}\")\n" ++ S "  continue;;"
  | .flag => without ++ S ")\n" ++ S "  " ++ o.var ++ S "+=(_OPT_ISSET_)\n" ++ S "  continue;;"

/-- `_make_short_option_case`, `bash_parser.py` 133-154, with `CasePatterns.for_short`, `bash_utils.py` 68-71. -/
def v1ShortText (o : BOpt) : Str :=
  let pattern := joinWith ['|'] (o.shorts.map (fun s => (s.drop 1).take 1))
  match o.kind with
  | .optional => pattern ++ S ")\n" ++ S "  if [[ -n \"$trailing_chars\" ]]\n" ++
      S "  then " ++ o.var ++ S "+=(\"$trailing_chars\")\n" ++
      S "  else " ++ o.var ++ S "+=(_OPT_ISSET_)\n" ++ S "  fi\n" ++ S "  continue 2;;"
  | .required => pattern ++ S ")\n" ++ S "  if [[ -n \"$trailing_chars\" ]]\n" ++
      S "  then " ++ o.var ++ S "+=(\"$trailing_chars\")\n" ++
      S "  else " ++ o.var ++ S "+=(\"${words_dequoted[++argi]}\")\n" ++ S "  fi\n" ++ S "  continue 2;;"
  | .flag => pattern ++ S ")\n" ++ S "  " ++ o.var ++ S "+=(_OPT_ISSET_);;"

/-- The code of a command, `bash_parser.py` 61-83: `word` is `arg` or `char`, `cases` are the cases of its options. -/
def v1BlockText (word : Str) (b : Block) (cases : List Str) : Str :=
  S "case \"$cmd\" in " ++ b.path ++ (if b.inherits then ['*'] else []) ++ S ")\n" ++
  S "  case \"$" ++ word ++ S "\" in\n" ++
  cases.flatMap (fun c => indent c 4 ++ ['\n']) ++
  S "  esac\n" ++ S "esac"

/-- The codes of all commands that have long options, `bash_parser.py` 67-74 and 176-178. -/
def v1LongTexts (blocks : List Block) : List Str :=
  blocks.filterMap (fun b =>
    match b.opts.filter (fun o => !o.longs.isEmpty) with
    | [] => none
    | os => some (v1BlockText (S "arg") b (os.map v1LongText)))

/-- The codes of all commands that have short options, `bash_parser.py` 76-83 and 180-182. -/
def v1ShortTexts (blocks : List Block) : List Str :=
  blocks.filterMap (fun b =>
    match b.opts.filter (fun o => !o.shorts.isEmpty) with
    | [] => none
    | os => some (v1BlockText (S "char") b (os.map v1ShortText)))

/-- `_make_switch_case`, `bash_parser_subcommand_code.py` 66-85. -/
def switchCaseText (names : List (List Str × Str)) : Str :=
  if names.isEmpty then S "cmd+=\":$arg\""
  else S "case \"$arg\" in\n" ++
    names.flatMap (fun e => S "  " ++ makePattern e.1 ++ S ") cmd+=\":" ++ e.2 ++ S "\";;\n") ++
    S "  *) cmd+=\":$arg\";;\n" ++ S "esac"

/-- `make_subcommand_switch_code`, `bash_parser_subcommand_code.py` 40-63. -/
def switchText (cases : List SwitchCase) : Option Str :=
  if cases.isEmpty then none
  else some (S "case \"$cmd|${#POSITIONALS[@]}\" in\n" ++
    cases.flatMap (fun c =>
      let label := quote (c.path ++ '|' :: natStr c.num)
      let code := switchCaseText c.names
      if code.contains '\n' then S "  " ++ label ++ S ")\n" ++ indent code 4 ++ S ";;\n"
      else S "  " ++ label ++ S ") " ++ code ++ S ";;\n") ++
    S "esac")

/-- A placeholder that is a line of its own, `bash_parser.py` 87-104: it is filled in, or the line is removed. -/
def fillIn (n : Nat) : Option Str → Str
  | some t => indent t n ++ ['\n']
  | none => []

/-- Codes joined by empty lines; `none` if there are none. -/
def joinCodes (ts : List Str) : Option Str := if ts.isEmpty then none else some (joinWith ['\n', '\n'] ts)

/-- `generate`, `bash_parser.py` 53-106, with `_PARSER_CODE`, 15-48. -/
def v1Text (blocks : List Block) (cases : List SwitchCase) : Str :=
  S "POSITIONALS=()\n" ++
  S "END_OF_OPTIONS=0\n" ++
  S "\n" ++
  S "local cmd=\"root\" argi arg i char trailing_chars\n" ++
  S "\n" ++
  S "for ((argi=1; argi < cword; ++argi)); do\n" ++
  S "  arg=\"${words_dequoted[argi]}\"\n" ++
  S "\n" ++
  S "  case \"$arg\" in\n" ++
  S "    --)\n" ++
  S "      END_OF_OPTIONS=1\n" ++
  S "      POSITIONALS+=(\"${words_dequoted[@]:$((++argi))}\")\n" ++
  S "      return;;\n" ++
  S "    -?*) # ignore '-'\n" ++
  fillIn 6 (joinCodes (v1LongTexts blocks)) ++
  S "      for ((i=1; i < ${#arg}; ++i)); do\n" ++
  S "        char=\"${arg:$i:1}\"\n" ++
  S "        trailing_chars=\"${arg:$((i + 1))}\"\n" ++
  fillIn 8 (joinCodes (v1ShortTexts blocks)) ++
  S "      done;;\n" ++
  S "    *)\n" ++
  S "      POSITIONALS+=(\"$arg\")\n" ++
  fillIn 6 (switchText cases) ++
  S "      ;;\n" ++
  S "  esac\n" ++
  S "done\n" ++
  S "\n" ++
  S "for ((; argi <= cword; ++argi)); do\n" ++
  S "  case \"${words_dequoted[argi]}\" in\n" ++
  S "    -?*);;\n" ++
  S "    *) POSITIONALS+=(\"${words_dequoted[argi]}\");;\n" ++
  S "  esac\n" ++
  S "done"

/-! ## Version 2 -/

/-- `_PARSER_CODE`, `bash_parser_v2.py` 17-119. -/
def v2Template : Str :=
  S "#ifdef positionals\n" ++
  S "POSITIONALS=()\n" ++
  S "#endif\n" ++
  S "END_OF_OPTIONS=0\n" ++
  S "\n" ++
  S "local cmd=\"root\" argi arg i char trailing_chars VAR ARGS\n" ++
  S "\n" ++
  S "%FIND_OPTION_CODE%\n" ++
  S "\n" ++
  S "__append_to_array() {\n" ++
  S "  local -n arr=$1\n" ++
  S "  arr+=(\"$2\")\n" ++
  S "}\n" ++
  S "\n" ++
  S "for ((argi=1; argi < cword; ++argi)); do\n" ++
  S "  arg=\"${words_dequoted[argi]}\"\n" ++
  S "\n" ++
  S "  case \"$arg\" in\n" ++
  S "    --)\n" ++
  S "      END_OF_OPTIONS=1\n" ++
  S "#ifdef positionals\n" ++
  S "      POSITIONALS+=(\"${words_dequoted[@]:$((++argi))}\")\n" ++
  S "#endif\n" ++
  S "      return;;\n" ++
  S "#ifdef long_options\n" ++
  S "    --*=*)\n" ++
  S "      if __find_option \"$cmd\" \"${arg%%=*}\"\n" ++
  S "      then __append_to_array \"$VAR\" \"${arg#*=}\"\n" ++
  S "      fi;;\n" ++
  S "    --*)\n" ++
  S "      if __find_option \"$cmd\" \"$arg\"; then\n" ++
  S "        if [[ \"$ARGS\" == 1 ]]\n" ++
  S "        then __append_to_array \"$VAR\" \"${words_dequoted[++argi]}\"\n" ++
  S "        else __append_to_array \"$VAR\" \"_OPT_ISSET_\"\n" ++
  S "        fi\n" ++
  S "      fi;;\n" ++
  S "#else\n" ++
  S "    --*);;\n" ++
  S "#endif\n" ++
  S "    -?*) # ignore '-'\n" ++
  S "#ifdef old_options\n" ++
  S "      if [[ \"$arg\" == -*=* ]]; then\n" ++
  S "        if __find_option \"$cmd\" \"${arg%%=*}\"; then\n" ++
  S "          __append_to_array \"$VAR\" \"${arg#*=}\"\n" ++
  S "          continue\n" ++
  S "        fi\n" ++
  S "      fi\n" ++
  S "\n" ++
  S "      if __find_option \"$cmd\" \"$arg\"; then\n" ++
  S "        if [[ \"$ARGS\" == 1 ]]\n" ++
  S "        then __append_to_array \"$VAR\" \"${words_dequoted[++argi]}\"\n" ++
  S "        else __append_to_array \"$VAR\" \"_OPT_ISSET_\"\n" ++
  S "        fi\n" ++
  S "\n" ++
  S "        continue\n" ++
  S "      fi\n" ++
  S "#endif\n" ++
  S "\n" ++
  S "#ifdef short_options\n" ++
  S "      for ((i=1; i < ${#arg}; ++i)); do\n" ++
  S "        char=\"${arg:$i:1}\"\n" ++
  S "        trailing_chars=\"${arg:$((i + 1))}\"\n" ++
  S "\n" ++
  S "        if __find_option \"$cmd\" \"-$char\"; then\n" ++
  S "          if [[ \"$ARGS\" == 1 ]]; then\n" ++
  S "            if [[ -n \"$trailing_chars\" ]]\n" ++
  S "            then __append_to_array \"$VAR\" \"$trailing_chars\"\n" ++
  S "            else __append_to_array \"$VAR\" \"${words_dequoted[++argi]}\"\n" ++
  S "            fi\n" ++
  S "            break;\n" ++
  S "#ifdef short_optionals\n" ++
  S "          elif [[ \"$ARGS\" == '?' ]]; then\n" ++
  S "            if [[ -n \"$trailing_chars\" ]]\n" ++
  S "            then __append_to_array \"$VAR\" \"$trailing_chars\"\n" ++
  S "            else __append_to_array \"$VAR\" _OPT_ISSET_\n" ++
  S "            fi\n" ++
  S "            break;\n" ++
  S "#endif\n" ++
  S "          else\n" ++
  S "            __append_to_array \"$VAR\" \"_OPT_ISSET_\"\n" ++
  S "          fi\n" ++
  S "        fi\n" ++
  S "      done\n" ++
  S "#endif\n" ++
  S "      ;;\n" ++
  S "#ifdef positionals\n" ++
  S "    *)\n" ++
  S "      POSITIONALS+=(\"$arg\")\n" ++
  S "%SUBCOMMAND_SWITCH_CODE%\n" ++
  S "      ;;\n" ++
  S "#endif\n" ++
  S "  esac\n" ++
  S "done\n" ++
  S "#ifdef positionals\n" ++
  S "\n" ++
  S "for ((; argi <= cword; ++argi)); do\n" ++
  S "  case \"${words_dequoted[argi]}\" in\n" ++
  S "    -?*);;\n" ++
  S "    *) POSITIONALS+=(\"${words_dequoted[argi]}\");;\n" ++
  S "  esac\n" ++
  S "done\n" ++
  S "#endif"

/-- The lines before the functions, 21-24. -/
def v2HeadText : Str :=
  S "END_OF_OPTIONS=0\n" ++
  S "\n" ++
  S "local cmd=\"root\" argi arg i char trailing_chars VAR ARGS\n" ++
  S "\n"

/-- The second function and the beginning of the loop, 26-37. -/
def v2LoopText : Str :=
  S "\n" ++
  S "__append_to_array() {\n" ++
  S "  local -n arr=$1\n" ++
  S "  arr+=(\"$2\")\n" ++
  S "}\n" ++
  S "\n" ++
  S "for ((argi=1; argi < cword; ++argi)); do\n" ++
  S "  arg=\"${words_dequoted[argi]}\"\n" ++
  S "\n" ++
  S "  case \"$arg\" in\n" ++
  S "    --)\n" ++
  S "      END_OF_OPTIONS=1\n"

/-- The cases of long options, 43-53. -/
def v2LongText : Str :=
  S "    --*=*)\n" ++
  S "      if __find_option \"$cmd\" \"${arg%%=*}\"\n" ++
  S "      then __append_to_array \"$VAR\" \"${arg#*=}\"\n" ++
  S "      fi;;\n" ++
  S "    --*)\n" ++
  S "      if __find_option \"$cmd\" \"$arg\"; then\n" ++
  S "        if [[ \"$ARGS\" == 1 ]]\n" ++
  S "        then __append_to_array \"$VAR\" \"${words_dequoted[++argi]}\"\n" ++
  S "        else __append_to_array \"$VAR\" \"_OPT_ISSET_\"\n" ++
  S "        fi\n" ++
  S "      fi;;\n"

/-- The code for old-style options, 59-73. -/
def v2OldText : Str :=
  S "      if [[ \"$arg\" == -*=* ]]; then\n" ++
  S "        if __find_option \"$cmd\" \"${arg%%=*}\"; then\n" ++
  S "          __append_to_array \"$VAR\" \"${arg#*=}\"\n" ++
  S "          continue\n" ++
  S "        fi\n" ++
  S "      fi\n" ++
  S "\n" ++
  S "      if __find_option \"$cmd\" \"$arg\"; then\n" ++
  S "        if [[ \"$ARGS\" == 1 ]]\n" ++
  S "        then __append_to_array \"$VAR\" \"${words_dequoted[++argi]}\"\n" ++
  S "        else __append_to_array \"$VAR\" \"_OPT_ISSET_\"\n" ++
  S "        fi\n" ++
  S "\n" ++
  S "        continue\n" ++
  S "      fi\n"

/-- The code for short options, up to 87, 77-87. -/
def v2LettersText : Str :=
  S "      for ((i=1; i < ${#arg}; ++i)); do\n" ++
  S "        char=\"${arg:$i:1}\"\n" ++
  S "        trailing_chars=\"${arg:$((i + 1))}\"\n" ++
  S "\n" ++
  S "        if __find_option \"$cmd\" \"-$char\"; then\n" ++
  S "          if [[ \"$ARGS\" == 1 ]]; then\n" ++
  S "            if [[ -n \"$trailing_chars\" ]]\n" ++
  S "            then __append_to_array \"$VAR\" \"$trailing_chars\"\n" ++
  S "            else __append_to_array \"$VAR\" \"${words_dequoted[++argi]}\"\n" ++
  S "            fi\n" ++
  S "            break;\n"

/-- The case of an optional argument, 89-94. -/
def v2OptionalText : Str :=
  S "          elif [[ \"$ARGS\" == '?' ]]; then\n" ++
  S "            if [[ -n \"$trailing_chars\" ]]\n" ++
  S "            then __append_to_array \"$VAR\" \"$trailing_chars\"\n" ++
  S "            else __append_to_array \"$VAR\" _OPT_ISSET_\n" ++
  S "            fi\n" ++
  S "            break;\n"

/-- The end of the code for short options, 96-100. -/
def v2LettersEndText : Str :=
  S "          else\n" ++
  S "            __append_to_array \"$VAR\" \"_OPT_ISSET_\"\n" ++
  S "          fi\n" ++
  S "        fi\n" ++
  S "      done\n"

/-- The loop behind, 112-118. -/
def v2RestText : Str :=
  S "\n" ++
  S "for ((; argi <= cword; ++argi)); do\n" ++
  S "  case \"${words_dequoted[argi]}\" in\n" ++
  S "    -?*);;\n" ++
  S "    *) POSITIONALS+=(\"${words_dequoted[argi]}\");;\n" ++
  S "  esac\n" ++
  S "done\n"

/-- The parts of the template that are defined, `bash_parser_v2.py` 177-188. -/
def v2Defines (p : Parts) : List Str :=
  (if p.short then [S "short_options"] else []) ++ (if p.long then [S "long_options"] else []) ++
  (if p.old then [S "old_options"] else []) ++ (if p.shortOptionals then [S "short_optionals"] else []) ++
  (if p.positionals then [S "positionals"] else [])

/-- The template for given parts of the code and texts for its two placeholders: `preprocess` with the parts, then the two
replacements, `bash_parser_v2.py` 190-202 (`template_v2` in `Lemmas/BashReadV2.lean` shows that it is the template). -/
def v2Fill (find sub : Str) (p : Parts) : Str :=
  (if p.positionals then S "POSITIONALS=()\n" else []) ++ v2HeadText ++ find ++ v2LoopText ++
  (if p.positionals then S "      POSITIONALS+=(\"${words_dequoted[@]:$((++argi))}\")\n" else []) ++
  S "      return;;\n" ++
  (if p.long then v2LongText else S "    --*);;\n") ++
  S "    -?*) # ignore '-'\n" ++
  (if p.old then v2OldText else []) ++
  S "\n" ++
  (if p.short then v2LettersText ++ (if p.shortOptionals then v2OptionalText else []) ++ v2LettersEndText else []) ++
  S "      ;;\n" ++
  (if p.positionals then S "    *)\n" ++ S "      POSITIONALS+=(\"$arg\")\n" ++ sub ++ S "      ;;\n" else []) ++
  S "  esac\n" ++ S "done\n" ++
  (if p.positionals then v2RestText else [])

/-- The number of arguments, `bash_parser_v2.py` 223-228. -/
def v2ArgsText : ArgKind → Str
  | .optional => S "'?'"
  | .required => S "1"
  | .flag => S "0"

/-- `_make_option_switch_code`, `bash_parser_v2.py` 160-168. -/
def v2OptionsText (os : List BOpt) : Str :=
  S "case \"$2\" in\n" ++
  os.flatMap (fun o => S "  " ++ makePattern (o.shorts ++ o.longs) ++ S ") VAR=" ++ o.var ++ S "; ARGS=" ++ v2ArgsText o.kind ++ S "; return;;\n") ++
  S "esac"

/-- `_make_cmd_plus_option_switch_code`, `bash_parser_v2.py` 141-157, for a command with options. -/
def v2BlockText (b : Block) : Str :=
  S "case \"$1\" in " ++ quote b.path ++ (if b.inherits then ['*'] else []) ++ S ")\n" ++
  indent (v2OptionsText b.opts) 2 ++ S "\n" ++ S "esac"

/-- The codes of the commands, `bash_parser_v2.py` 124-132: a command without options has none, and with only one command
its path is not looked at. -/
def v2FindCodes : List Block → List Str
  | [b] => if b.opts.isEmpty then [] else [v2OptionsText b.opts]
  | blocks => (blocks.filter (fun b => !b.opts.isEmpty)).map v2BlockText

/-- `_make_find_option_code`, `bash_parser_v2.py` 124-138. -/
def v2FindText (blocks : List Block) : Str :=
  S "__find_option() {\n" ++ indent (joinWith ['\n'] (v2FindCodes blocks)) 2 ++ S "\n" ++ S "  return 1\n" ++ S "}"

/-- `generate`, `bash_parser_v2.py` 171-203. -/
def v2Text (p : Parts) (blocks : List Block) (cases : List SwitchCase) : Str :=
  v2Fill (v2FindText blocks ++ ['\n']) (fillIn 6 (switchText cases)) p

/-- The parser of the script, `bash.py` 140-149: version 1 if its text is shorter, otherwise version 2. -/
def parserText (p : Parts) (blocks : List Block) (cases : List SwitchCase) : Str :=
  if (v1Text blocks cases).length < (v2Text p blocks cases).length then v1Text blocks cases else v2Text p blocks cases

end CC
