import Verif.Model.When
import Verif.Model.QueryHelpers
/-!
# What a `when` condition means (specification)

Only the data type `Cond` of parsed conditions, text comparison and integer comparison are taken
from the model.
-/

namespace WhenSpec

open CC

/-- A command line: the options given, as typed, each with its value, in order; and the
positionals in order. -/
structure Line where
  given : List (Str × Str)
  positionals : List Str

/-- The values given for the option that `o` names, in order. `same` says when two option
strings name the same option. -/
def valuesOf (same : Str → Str → Bool) (l : Line) (o : Str) : List Str :=
  (l.given.filter (fun p => same o p.1)).map Prod.snd

/-- Meaning with options taken one by one: the condition looks at the last value (or, with
`any`, at all values) of *each* listed option. -/
def holdsEach (same : Str → Str → Bool) (rx : Bool → Str → Str → Bool) (l : Line) : Cond → Prop
  | .optionIs opts vals nocase any =>
    ∃ o ∈ opts, ∃ v ∈ vals, ∃ w, sameText nocase v w = true ∧
      (if any then w ∈ valuesOf same l o else (valuesOf same l o).getLast? = some w)
  | .optionMatch opts regex nocase any =>
    ∃ o ∈ opts, ∃ w, rx nocase regex w = true ∧
      (if any then w ∈ valuesOf same l o else (valuesOf same l o).getLast? = some w)
  | .hasOption opts => ∃ o ∈ opts, ∃ p ∈ l.given, same o p.1 = true
  | .positionalCount op n => op.holds l.positionals.length n = true
  | .positionalContains nocase n vals =>
    1 ≤ n ∧ ∃ p, l.positionals[n.toNat - 1]? = some p ∧ ∃ v ∈ vals, sameText nocase p v = true

/-- Meaning with the listed options taken together: the condition looks at the last occurrence
(or, with `any`, at all occurrences) of *any* listed option, compared as typed. -/
def holdsTogether (rx : Bool → Str → Str → Bool) (l : Line) : Cond → Prop
  | .optionIs opts vals nocase any =>
    ∃ v ∈ vals, ∃ w, sameText nocase v w = true ∧
      (if any then ∃ o ∈ opts, (o, w) ∈ l.given
       else ∃ o ∈ opts, (l.given.filter (fun p => opts.contains p.1)).getLast? = some (o, w))
  | .optionMatch opts regex nocase any =>
    ∃ w, rx nocase regex w = true ∧
      (if any then ∃ o ∈ opts, (o, w) ∈ l.given
       else ∃ o ∈ opts, (l.given.filter (fun p => opts.contains p.1)).getLast? = some (o, w))
  | .hasOption opts => ∃ o ∈ opts, ∃ w, (o, w) ∈ l.given
  | .positionalCount op n => op.holds l.positionals.length n = true
  | .positionalContains nocase n vals =>
    1 ≤ n ∧ ∃ p, l.positionals[n.toNat - 1]? = some p ∧ ∃ v ∈ vals, sameText nocase p v = true

end WhenSpec
