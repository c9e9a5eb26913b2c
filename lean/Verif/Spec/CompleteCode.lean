import Verif.Spec.BashArms
import Verif.Model.Py
/-!
# The code of a completer as foreign lines (specification)
-/

namespace CC

/-- A code that may stand in a clause: a line without anything visible is empty; the last line is not empty, is not `return 0`, has no
comment and does not end with `;` or a backslash. -/
def CompleteCode (code : Str) : Prop :=
  code = [] ∨ ((∀ l ∈ splitOn '\n' code, strip l = [] → l = []) ∧
    ∃ l c, (splitOn '\n' code).getLast? = some l ∧ l.getLast? = some c ∧ c ≠ ';' ∧ c ≠ '\\' ∧ strip l ≠ [] ∧ BashArms.comment true l = false ∧
      BashOffers.trimmed l ≠ S "return 0")

/-- The lines of a code in a clause: six blanks in front of each, unless there is nothing on it; an empty code has no lines. -/
def clauseLines (code : Str) : List Str :=
  if code = [] then [] else (splitOn '\n' code).map (fun l => if strip l = [] then l else S "      " ++ l)

end CC
