import Verif.Spec.Cmdline
/-!
# What a captured variable has to hold (specification)
-/

namespace CC

/-- One element for each occurrence of an option with these strings on a command line, in order: the argument, or
`none` if the option was given without one. -/
def occurrences (strings : List Str) (its : List Item) (e : Ending) : List (Option Str) :=
  (its.flatMap Item.options ++ e.options).filterMap (fun g => if g.1 ∈ strings then some g.2 else none)

end CC
