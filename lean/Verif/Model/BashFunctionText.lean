import Verif.Model.StrUtils
/-!
# Model of the text of a completion function in the Bash script
-/

namespace CC

/-- The pieces of `_generate`, `bash.py` 125-155, in the order of the dictionary. What they are is modelled elsewhere. -/
structure FunctionCode where
  initCompletion : Option Str
  commandLineParsing : Option Str
  subcommandCall : Option Str
  commandArg : Option Str
  optionCompletion : Option Str
  optionStrings : Option Str
  positionalCompletion : Option Str

/-- `c for c in code.values() if c`, `bash.py` 158. -/
def FunctionCode.pieces (f : FunctionCode) : List Str :=
  ([f.initCompletion, f.commandLineParsing, f.subcommandCall, f.commandArg, f.optionCompletion, f.optionStrings, f.positionalCompletion].filterMap id).filter
    (fun c => !c.isEmpty)

/-- The function, `bash.py` 157-160. -/
def completionFunction (name : Str) (f : FunctionCode) : Str :=
  name ++ S "() {\n" ++
  indent (joinWith (S "\n\n") f.pieces) 2 ++ S "\n\n" ++
  S "  return 1\n" ++
  S "}"

end CC
