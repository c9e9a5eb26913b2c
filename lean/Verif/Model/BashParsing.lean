import Verif.Model.BashFile
import Verif.Model.Algo
import Verif.Model.StrUtils
/-!
# Model of the part of the Bash completion function that declares the variables and calls the parser

`_generate_commandline_parsing`, `bash.py` 53-68.
-/

namespace CC

/-- `local_vars`, `bash.py` 54-58: the variables of all options of all commands, from the root on. Simplification: when the
function runs, the parsers have been generated (`bash.py` 140-141), and this has given every option a variable
(`bash_utils.py` 40-45), so the test for `None` always holds. -/
def captureNames (root : Cmd) : List Str := (root.walk []).flatMap (fun e => e.2.data.options.map captureVariable)

/-- `_generate_commandline_parsing`, `bash.py` 53-68. `width` is `line_length` of the configuration, `f` is the name of the
function that parses the command line. -/
def parsingText (width : Int) (root : Cmd) (f : Str) : Str :=
  S "local END_OF_OPTIONS POSITIONALS\n" ++
  (if captureNames root = [] then [] else joinWithWrap [' '] ['\n'] (width - 2) (uniq (captureNames root)) (S "local -a ")) ++
  S "\n" ++ f

end CC
