import Verif.Model.Shell
/-!
# Model of `crazy_complete/fish_conditions.py`: text of a condition command
-/

namespace CC

/-- `escape_in_double`, `fish_conditions.py` 15-18: a backslash before `"`, `$`, backquote
and backslash. -/
def escapeInDouble : Str → Str
  | [] => []
  | c :: cs =>
    if c = '"' ∨ c = '$' ∨ c = '`' ∨ c = '\\' then '\\' :: c :: escapeInDouble cs
    else c :: escapeInDouble cs

/-- `make_condition_command`, `fish_conditions.py` 21-38. -/
def makeConditionCommand (pre : Str) (args : List Str) : Str :=
  pre ++ [' '] ++ joinWith [' '] (args.map (fun a => escapeInDouble (quote a)))

end CC
