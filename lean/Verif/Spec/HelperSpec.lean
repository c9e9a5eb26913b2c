import Verif.Model.Py
/-!
# Dependencies and words (specification)
-/

namespace CC

/-- `Needs deps f g`: `g` is `f` or is reached from `f` through dependencies. -/
inductive Needs (deps : Str → Option (List Str)) : Str → Str → Prop
  | refl {f} : Needs deps f f
  | step {f g h ds} : Needs deps f g → deps g = some ds → h ∈ ds → Needs deps f h

/-- Dependencies exist and do not go round in circles. -/
structure SoundRepo (deps : Str → Option (List Str)) (rank : Str → Nat) : Prop where
  closed : ∀ f ds, deps f = some ds → ∀ d ∈ ds, (deps d).isSome = true
  falls : ∀ f ds, deps f = some ds → ∀ d ∈ ds, rank d < rank f

/-- Split a text into its longest runs of word characters and of other characters. -/
def wordRuns (w : Char → Bool) : Str → List (Bool × Str)
  | [] => []
  | c :: cs => match wordRuns w cs with
    | [] => [(w c, [c])]
    | (b, r) :: rest => if b = w c then (b, c :: r) :: rest else (w c, [c]) :: (b, r) :: rest

/-- Change every whole word of a text and keep everything else. -/
def mapWords (w : Char → Bool) (f : Str → Str) (s : Str) : Str :=
  (wordRuns w s).flatMap (fun r => if r.1 then f r.2 else r.2)

end CC
