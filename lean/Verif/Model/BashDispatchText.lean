import Verif.Model.BashFunction
/-!
# Model of the text of the dispatcher (`crazy_complete/bash_option_completion.py`)

`Model/BashFunction.lean` has what the clauses do (`prevClauses`, `curClauses`); here is the text that is written into the script.
`optionals` says whether `__complete_option` has its third argument; if not, the words `WITH_OPTIONAL` and `WITHOUT_OPTIONAL` are taken out of the
text (lines 345-347). They are part of the calls only, because an option string has no blank.
-/

namespace CC

/-- `CasePatterns.for_old_without_arg`, `bash_utils.py` 74-81. -/
def oldPattern (strings : List Str) : Str :=
  if strings.length ≤ 2 then joinWith ['|'] strings else S "-@(" ++ joinWith ['|'] (strings.map (fun s => s.dropWhile (· == '-'))) ++ S ")"

/-- `short_no_args_pattern`, `bash_option_completion.py` 223-226. -/
def flagsPattern (noArgs : Str) : Str := if noArgs.isEmpty then [] else S "*([" ++ noArgs ++ S "])"

/-- `_get_prev_completion`, lines 249-268. -/
def prevText (optionals : Bool) (i : DispatchInfo) : Str :=
  let m := if optionals then S "WITHOUT_OPTIONAL " else []
  let last := S "  -" ++ flagsPattern i.noArgs ++ S "[" ++ i.requiredArgs ++ S "])\n       __complete_option \"-${prev: -1}\" \"$cur\" " ++ m ++ S "&& return 0;;\n"
  S "case \"$prev\" in\n" ++
  (if i.longRequired then S "  --*) __complete_option \"$prev\" \"$cur\" " ++ m ++ S "&& return 0;;\n" else S "  --*);;\n") ++
  (if i.oldRequired && i.shortRequired then S "  -*)  __complete_option \"$prev\" \"$cur\" " ++ m ++ S "&& return 0;&\n" ++ last
  else if i.oldRequired then S "  -*)  __complete_option \"$prev\" \"$cur\" " ++ m ++ S "&& return 0;;\n"
  else if i.shortRequired then last
  else []) ++ S "esac"

/-- `_get_cur_completion`, lines 271-312. The clause `--*);;` is taken out again if it is the last one (308-309). `prefixed` is the name of the
function `prefix_compreply`. -/
def curText (optionals : Bool) (prefixed : Str) (i : DispatchInfo) : Str :=
  let m := if optionals then S "WITH_OPTIONAL " else []
  let short := i.shortRequired || i.shortOptional
  let rest :=
    (if short && !i.oldStrings.isEmpty then S "  " ++ oldPattern i.oldStrings ++ S ");;\n" else []) ++
    (if i.oldRequired || i.oldOptional then S "  -*=*)\n    __complete_option \"${cur%%=*}\" \"${cur#*=}\" " ++ m ++ S "&& return 0;&\n" else []) ++
    (if short then S "  -" ++ flagsPattern i.noArgs ++ S "[" ++ i.requiredArgs ++ i.optionalArgs ++ S "]*)\n    local i\n    for ((i=2; i <= ${#cur}; ++i)); do\n" ++
      S "      local pre=\"${cur:0:$i}\" value=\"${cur:$i}\"\n      __complete_option \"-${pre: -1}\" \"$value\" " ++ m ++ S "&& {\n        " ++ prefixed ++
      S " \"$pre\"\n        return 0\n      }\n    done;;\n" else [])
  S "case \"$cur\" in\n" ++
  (if i.longRequired || i.longOptional then S "  --*=*)\n    __complete_option \"${cur%%=*}\" \"${cur#*=}\" " ++ m ++ S "&& return 0;;\n" else S "  --*=*);;\n") ++
  (if rest.isEmpty then [] else S "  --*);;\n" ++ rest) ++ S "esac"

/-- `_get_dispatcher`, lines 315-327, with the replacements of 345-347. -/
def dispatcherText (optionals : Bool) (prefixed : Str) (i : DispatchInfo) : Str :=
  let required := i.shortRequired || i.longRequired || i.oldRequired
  let optional := i.shortOptional || i.longOptional || i.oldOptional
  joinWith (S "\n\n") ((if required then [prevText optionals i] else []) ++ (if required || optional then [curText optionals prefixed i] else []))

end CC
