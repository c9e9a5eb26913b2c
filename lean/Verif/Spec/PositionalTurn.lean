import Verif.Spec.OfferedSpec
import Verif.Model.Cli
/-!
# Which positional is to be completed (specification)
-/

namespace CC

/-- The positional `p` may be completed if the command line has `count` positional words, with the one at the cursor: it stands at
this place (or at it or before it if it can be repeated), and its condition is true. The arguments of a command (`command_arg`) are
completed elsewhere. -/
def PositionalTurn (parents : List Cmd) (isRegex : Str → Bool) (holds : Cond → Prop) (count : Nat) (p : Pos) : Prop :=
  p.complete.head? ≠ some (.str (S "command_arg")) ∧
  (p.repeatable = false ∧ count = positionalNum parents p.number ∨ p.repeatable = true ∧ positionalNum parents p.number ≤ count) ∧
  ∀ w, p.when_ = some w → w ≠ [] → WhenTrue isRegex holds w

/-- The lines of a code in a block: two blanks in front of each, unless there is nothing on it; an empty code has no lines. -/
def indentedLines (code : Str) : List Str :=
  if code = [] then [] else (splitOn '\n' code).map (fun l => if strip l = [] then l else ' ' :: ' ' :: l)

end CC
