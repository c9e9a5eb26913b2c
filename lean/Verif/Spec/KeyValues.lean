import Verif.Spec.ItemList
/-!
# Lists of keys with values in one word (specification, independent of the model)
-/

namespace ItemList

/-- What is known of a key: the values offered for a text typed after it, and the keys that may not be with it. -/
structure KeyInfo where
  name : List Char
  values : List Char → List (List Char)
  excludes : List (List Char)

/-- The key of a pair: what is before the separator. -/
def keyOf (sep : Char) (pair : List Char) : List Char := (items sep pair).headD []

/-- One of the pairs of the text has a key that excludes `name`. -/
def Excluded (keys : List KeyInfo) (sep1 sep2 : Char) (u name : List Char) : Prop :=
  ∃ pair ∈ items sep1 u, ∃ k ∈ keys, k.name = keyOf sep2 pair ∧ name ∈ k.excludes

/-- The words that a list of pairs should be completed to: the current pair is completed to a key that starts with it
and is not excluded; behind a key and the separator, the value is completed. -/
def PairOffered (keys : List KeyInfo) (sep1 sep2 : Char) (u word : List Char) : Prop :=
  if sep2 ∈ current sep1 u then
    ∃ k ∈ keys, ∃ value, current sep1 u = k.name ++ sep2 :: value ∧ sep2 ∉ k.name ∧
      ∃ r ∈ k.values value, word = before sep1 u ++ k.name ++ sep2 :: r
  else
    ∃ k ∈ keys, current sep1 u <+: k.name ∧ ¬ Excluded keys sep1 sep2 u k.name ∧ word = before sep1 u ++ k.name

end ItemList
