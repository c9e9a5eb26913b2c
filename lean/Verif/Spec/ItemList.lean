/-!
# Lists of items in one word (specification, independent of the model)
-/

namespace ItemList

/-- The items of a text: what is between the separators. -/
def items (sep : Char) : List Char → List (List Char)
  | [] => [[]]
  | c :: cs =>
    if c = sep then [] :: items sep cs
    else
      match items sep cs with
      | [] => [[c]]
      | i :: r => (c :: i) :: r

/-- The item that is being typed. -/
def current (sep : Char) (u : List Char) : List Char := (items sep u).getLastD []

/-- The items before it. -/
def finished (sep : Char) (u : List Char) : List (List Char) := (items sep u).dropLast

/-- The text before the item that is being typed. -/
def before (sep : Char) (u : List Char) : List Char := u.take (u.length - (current sep u).length)

/-- The words that a list of values should be completed to, given the text typed so far: another value in the place
of the current item, unless that is a value already; then a separator, if a value is left. -/
def Offered (dup : Bool) (sep : Char) (values : List (List Char)) (u word : List Char) : Prop :=
  if current sep u ≠ [] ∧ current sep u ∈ values then
    word = u ++ [sep] ∧ ∃ v ∈ values, dup = true ∨ (v ≠ current sep u ∧ v ∉ finished sep u)
  else
    ∃ v ∈ values, word = before sep u ++ v ∧ current sep u <+: v ∧ (dup = true ∨ v ∉ finished sep u)

end ItemList
