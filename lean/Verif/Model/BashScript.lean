import Verif.Model.BashFunction
import Verif.Model.BashPatterns
import Verif.Model.BashWrapper
/-!
# Model of the text by which the Bash functions of a program call each other

`_generate_subcommand_call`, the names of the functions and which of them are written (`bash.py`). The other parts of
the functions are not text here: what they do is `runOwn` (`Model/BashFunction.lean`).
-/

namespace CC

/-- `make_completion_funcname` for a command, `bash.py` 80 and 156. -/
def bashName (pre : Str) (parents : List Cmd) (c : Cmd) : Str :=
  completionFuncname pre ((parents ++ [c]).map (·.data.prog)) []

/-- The line of a subcommand, `bash.py` 77-90, without the line break. -/
def callLine (pre : Str) (parents : List Cmd) (c d : Cmd) : Str :=
  let pattern := makePattern ((variations c d).map quote)
  let funcname := bashName pre (parents ++ [c]) d
  if d.worth then
    if c.data.inheritOptions = .val true then S "    " ++ pattern ++ S ") " ++ funcname ++ S " && return 0;;"
    else S "    " ++ pattern ++ S ") " ++ funcname ++ S " && return 0 || return 1;;"
  else
    if c.data.inheritOptions = .val true then S "    " ++ pattern ++ S ");;"
    else S "    " ++ pattern ++ S ") return 0;;"

/-- `_generate_subcommand_call`, `bash.py` 70-93. -/
def callText (pre : Str) (parents : List Cmd) (c : Cmd) : Option Str :=
  c.sub.map (fun n =>
    let num := natStr (positionalNum parents n - 1)
    S "if (( " ++ num ++ S " < ${#POSITIONALS[@]} )); then\n" ++
    S "  case \"${POSITIONALS[" ++ num ++ S "]}\" in\n" ++
    c.children.flatMap (fun d => callLine pre parents c d ++ S "\n") ++
    S "  esac\n" ++
    S "fi")

/-- The functions of the script, in order, `bash.py` 121-123, 209 and 218: commands that are not worth a function have none. -/
def bashFunctions (root : Cmd) : List (List Cmd × Cmd) := (root.walk []).filter (fun e => e.2.worth)

end CC
