import Verif.Spec.CliSpec
import Verif.Spec.WhenSpec
/-!
# Which option strings have to be offered at the cursor (specification)
-/

namespace CC

open ShellGrammar WhenSpec

open Classical in
/-- The text under which a string of the option is offered: long and old-style strings get a `=` if an
argument can follow in the same word. -/
def OfferedAs (o : Opt) (w : Str) : Prop :=
  ∃ s ∈ o.strings,
    if (IsLong s ∨ IsOld s) ∧ o.complete ≠ none ∧ (o.optionalArg = true ∨ o.longSep = .both ∨ o.longSep = .equals)
    then w = s ++ ['='] else w = s

/-- The option is final and belongs to the command or to one of its parents. -/
def FinalHere (parents : List Cmd) (c : Cmd) (f : Opt) : Prop :=
  f.final = true ∧ (f ∈ c.data.options ∨ ∃ p ∈ parents, f ∈ p.data.options)

/-- The text is a `when` expression that is true, if `holds` says which conditions are. -/
def WhenTrue (isRegex : Str → Bool) (holds : Cond → Prop) (w : Str) : Prop :=
  ∃ ts e, parseWhen isRegex w = .ok ts ∧ Denotes ts e ∧
    ∃ v : Cond → Bool, (∀ c, v c = true ↔ holds c) ∧ e.eval v = true

/-- `w` is to be offered for the word `cur` in the command `c`. -/
def Offered (parents : List Cmd) (c : Cmd) (isRegex : Str → Bool) (given : Opt → Prop) (holds : Cond → Prop)
    (endOfOptions : Bool) (cur w : Str) : Prop :=
  endOfOptions = false ∧ ['-'] <+: cur ∧ cur <+: w ∧
  (∀ f, FinalHere parents c f → ¬ given f) ∧
  ∃ o ∈ c.data.options, o.hidden = false ∧ OfferedAs o w ∧
    (∀ x ∈ c.data.options, ShareGroup o x → x.eqv o = false → ¬ given x) ∧
    (o.repeatable = .val false → ¬ given o) ∧
    ∀ t, o.when_ = some t → WhenTrue isRegex holds t

end CC
