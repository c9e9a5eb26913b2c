import Verif.Spec.CliSpec
import Verif.Model.Walk
import Verif.Model.BashFunction
/-!
# Which commands of a tree answer a completion in Bash (specification)

`own parents c` is what the code for the command `c` itself does: what it offers and whether its status is 0.
-/

namespace CC

/-- The word that names a subcommand of `c` is typed: `w`. -/
def TypedSub (ps : List Str) (parents : List Cmd) (c : Cmd) (w : Str) : Prop :=
  ∃ n, c.sub = some n ∧ ps[positionalIndex parents n]? = some w

/-- The subcommand that is meant by a word: the first that has it among its names. -/
def MeansSub (c : Cmd) (w : Str) (d : Cmd) : Prop :=
  ∃ l r, c.children = l ++ d :: r ∧ w ∈ variations c d ∧ ∀ e ∈ l, w ∉ variations c e

/-- What a command answers. If no subcommand is typed, or the word is no name of one, the command answers itself. Otherwise the
subcommand answers; if it finds nothing (its status is not 0) and the command passes its options on, the command answers too.
A subcommand that has nothing to complete finds something unless the command passes its options on. -/
inductive Answers (own : List Cmd → Cmd → Option (List BEvent × Bool)) (ps : List Str) : List Cmd → Cmd → List BEvent × Bool → Prop
  | itself {parents c r} : (∀ w, ¬ TypedSub ps parents c w) → own parents c = some r → Answers own ps parents c r
  | unknown {parents c w r} : TypedSub ps parents c w → (∀ d ∈ c.children, w ∉ variations c d) → own parents c = some r → Answers own ps parents c r
  | found {parents c w d es} : TypedSub ps parents c w → MeansSub c w d → d.worth = true → Answers own ps (parents ++ [c]) d (es, true) →
      Answers own ps parents c (es, true)
  | nothing {parents c w d es} : TypedSub ps parents c w → MeansSub c w d → d.worth = true → Answers own ps (parents ++ [c]) d (es, false) →
      c.data.inheritOptions ≠ .val true → Answers own ps parents c (es, false)
  | too {parents c w d es r} : TypedSub ps parents c w → MeansSub c w d → d.worth = true → Answers own ps (parents ++ [c]) d (es, false) →
      c.data.inheritOptions = .val true → own parents c = some r → Answers own ps parents c (es ++ r.1, r.2)
  | empty {parents c w d} : TypedSub ps parents c w → MeansSub c w d → d.worth = false → c.data.inheritOptions ≠ .val true → Answers own ps parents c ([], true)
  | emptyToo {parents c w d r} : TypedSub ps parents c w → MeansSub c w d → d.worth = false → c.data.inheritOptions = .val true →
      own parents c = some r → Answers own ps parents c r

end CC
