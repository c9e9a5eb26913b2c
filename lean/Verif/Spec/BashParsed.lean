import Verif.Spec.BashPlain
/-!
# What a completion function has in its variables when the command line has been parsed (specification)
-/

namespace CC

/-- A function whose body is a text. -/
noncomputable def textFunction (fuel : Nat) (t : Str) (args : List Str) (e : BashText.Env) : Option BashText.Env :=
  (BashText.read t).bind (fun code => BashText.closure (BashText.exec fuel [] code) args e)

/-- The values of an option that are on the command line, and nothing else. -/
def onlyTyped (vs : List Str) : BashText.Val := if vs = [] then .unset else .array vs

/-- A name for a function that is not a word of the language: a name that begins with `_`. -/
def FunctionName (f : Str) : Prop := BashText.isName f = true ∧ f.head? = some '_'

/-- Functions give back what they have made local when they end. Every function written in Bash does. -/
def EndsItsLocals (fs : BashText.Funs) : Prop := ∀ g ∈ fs, ∀ args e e', g.2 args e = some e' → e'.saved = e.saved

end CC
