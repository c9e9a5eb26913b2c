import Verif.Model.BashFunction
import Verif.Model.BashWrapper
/-!
# Model of the text of the Bash code that hands the line over to a command that is a positional
-/

namespace CC

/-- The text for the number of a positional, `bash.py` 106-114. -/
def handOverText (offset : Str) (num : Nat) : Str :=
  S "if (( ${#POSITIONALS[@]} >= " ++ intStr num ++ S " )); then\n" ++
  S "  local realpos\n" ++
  S "  for realpos in \"${!COMP_WORDS[@]}\"; do\n" ++
  S "    [[ \"${COMP_WORDS[realpos]}\" == \"${POSITIONALS[" ++ intStr ((num : Int) - 2) ++ S "]}\" ]] && {\n" ++
  S "      " ++ offset ++ S " $realpos\n" ++
  S "      return 0;\n" ++
  S "    }\n" ++
  S "  done\n" ++
  S "fi"

/-- `_generate_command_arg_call`, `bash.py` 95-115. `none`: no code. -/
def commandArgText (ctxt : BashCtxt) (parents : List Cmd) (c : Cmd) : Option Str :=
  (c.data.positionals.find? Pos.isCommandArg).map (fun p => handOverText (commandOffset ctxt) (positionalNum parents p.number))

end CC
