import Verif.Model.BashFunctionText
import Verif.Model.BashScript
/-!
# Model of the text of all completion functions in the Bash script
-/

namespace CC

/-- The completion functions in the script, `bash.py` 212 and 221; the parts of the output are joined by empty lines, `output.py` 80-82. -/
def functionsText (pre : Str) (root : Cmd) (code : List Cmd → Cmd → FunctionCode) : Str :=
  joinWith (S "\n\n") ((bashFunctions root).map (fun e => completionFunction (bashName pre e.1 e.2) (code e.1 e.2)))

end CC
