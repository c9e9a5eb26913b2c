/-!
# Shell identifiers (specification, independent of the model)
-/

namespace Ident

/-- A shell identifier: a letter or underscore, then letters, digits, underscores (ASCII). -/
def IsShellIdentifier (s : List Char) : Prop :=
  ∃ c cs, s = c :: cs ∧ (c.isAlpha = true ∨ c = '_') ∧
    ∀ d ∈ cs, d.isAlphanum = true ∨ d = '_'

/-- No two neighbours are both underscores. -/
def noDoubleUnderscore : List Char → Bool
  | '_' :: '_' :: _ => false
  | _ :: cs => noDoubleUnderscore cs
  | [] => true

end Ident
