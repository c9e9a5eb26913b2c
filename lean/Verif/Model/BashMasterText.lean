import Verif.Model.BashFunction
import Verif.Model.BashOptionText
import Verif.Model.BashPatterns
/-!
# Model of the text of `__complete_option` (`crazy_complete/bash_option_completion.py`)

`Model/BashFunction.lean` has which statements the function has (`masterOf`); here each of them is modelled as the text that is written
into the script. The condition of an option (`ArgOpt.cond`) is its `when`, which is absent if it is the empty string: the code asks
`o.when`, lines 63 and 141. The code of a completer (`ArgOpt.code`) is any text.
-/

namespace CC

/-- A clause of `_add_options_without_when`, `bash_option_completion.py` 72-77. -/
def returnClauseText (cl : List Str × Str) : Str :=
  S "  " ++ makePattern cl.1 ++ S ")\n" ++ (if cl.2.isEmpty then [] else indent cl.2 4 ++ S "\n") ++ S "    return 0;;\n"

/-- A clause of `MasterCompletionFunctionNoWhen._add_options`, lines 148-153. -/
def plainClauseText (cl : List Str × Str) : Str :=
  if cl.2.isEmpty then S "  " ++ makePattern cl.1 ++ S ");;\n" else S "  " ++ makePattern cl.1 ++ S ")\n" ++ indent cl.2 4 ++ S ";;\n"

/-- The text of a statement: `_add_options_with_when`, lines 91-98; `_add_options_without_when`, 71-79; line 59; `_add_options` of the
function without conditions, 147-157; lines 132-134. The condition: `generate_when_conditions`, as in C102. -/
def MStmt.text (isRegex : Str → Bool) (pre : Str) (options : List Opt) : MStmt → Except Err Str
  | .ifCase strings cond code => do
    let ts ← parseWhen isRegex cond
    let t ← bashWhenText pre (bashResolve options) ts
    .ok (S "case \"$opt\" in " ++ makePattern strings ++ S ")\n  if " ++ t ++ S "; then\n" ++
      (if code.isEmpty then [] else indent code 4 ++ S "\n") ++ S "    return 0\n  fi;;\nesac")
  | .cases clauses => .ok (S "case \"$opt\" in\n" ++ clauses.flatMap returnClauseText ++ S "esac")
  | .mode => .ok (S "[[ \"$mode\" == WITH_OPTIONAL ]] || return 1")
  | .casesRet clauses => .ok (S "case \"$opt\" in\n" ++ clauses.flatMap plainClauseText ++ S "  *) ret=1;;\nesac")
  | .checkRet => .ok (S "(( ! ret )) && return 0\n[[ \"$mode\" == WITH_OPTIONAL ]] || return 1\nret=0")

/-- The line of local variables, lines 105-108 and 164-167. -/
def masterLocals (hasWhen optionals : Bool) : Str :=
  S "  local opt=\"$1\" cur=\"$2\"" ++ (if optionals then S " mode=\"$3\"" else []) ++ (if hasWhen then [] else S " ret=0")

/-- `get`, lines 100-114 and 159-173, of the function that `_get_master_completion_obj` (176-182) chooses. -/
def masterText (isRegex : Str → Bool) (pre : Str) (options : List Opt) (os : List ArgOpt) (funcname : Str) : Except Err (Option Str) := do
  let code ← mapE (MStmt.text isRegex pre options) (masterOf os).2
  if code.isEmpty then .ok none
  else .ok (some (funcname ++ S "() {\n" ++ masterLocals (masterOf os).1 (os.any (fun o => o.optional)) ++ S "\n\n" ++
    indent (joinWith (S "\n\n") code) 2 ++ S "\n\n" ++ (if (masterOf os).1 then S "  return 1\n" else S "  return $ret\n") ++ S "}"))

end CC
