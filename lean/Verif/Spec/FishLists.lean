import Verif.Spec.ItemList
import Verif.Model.FishLists
/-!
# What lists and prefixes should be completed to (specification)

`FishTree` is used as the syntax of completers only.
-/

namespace CC
open ItemList

/-- The candidates wanted for a text: those of a simple completer that begin with the text; in a list, candidates for
the current item that are not among the finished items; behind a prefix, candidates for what follows it; and the
prefix itself while it is being typed. -/
def Wanted : FishTree → Str → Str × Str → Prop
  | .values vs, w, c => c ∈ vs ∧ w <+: c.1
  | .text g, w, c => c ∈ g w ∧ w <+: c.1
  | .list dup sep t, w, c => ∃ v d, Wanted t (current sep w) (v, d) ∧ (dup = true ∨ v ∉ finished sep w) ∧
      c = (before sep w ++ v, d)
  | .prefixed p t, w, c => (∃ u v d, w = p ++ u ∧ Wanted t u (v, d) ∧ c = (p ++ v, d)) ∨
      (w <+: p ∧ w ≠ p ∧ c = (p, []))

/-- The separators and prefixes that the helpers can deal with. -/
def FishTree.Ok : FishTree → Prop
  | .values _ => True
  | .text _ => True
  | .list _ sep t => sep ≠ '*' ∧ sep ≠ '?' ∧ t.Ok
  | .prefixed p t => p ≠ [] ∧ t.Ok

/-- The completer does not look at the text. -/
def FishTree.Blind : FishTree → Prop
  | .values _ => True
  | _ => False

/-- At most one list or prefix, or a simple completer. -/
def FishTree.Simple : FishTree → Prop
  | .values _ => True
  | .text _ => True
  | .list _ _ t => t.Blind
  | .prefixed _ t => t.Blind

/-- A list or a prefix around a completer; if that is itself a list or a prefix, its values do not depend on the
text. -/
def FishTree.Shallow : FishTree → Prop
  | .values _ => True
  | .text _ => True
  | .list _ _ t => t.Simple
  | .prefixed _ t => t.Simple

end CC
