import Verif.Spec.FishLists
import Verif.Spec.KeyValues
import Verif.Model.FishKeyValue
/-!
# What keys with values should be completed to in Fish (specification)
-/

namespace CC
open ItemList

/-- A key: its name, its description, the completer for its values (if it takes one), the keys that may not come with
it. -/
structure KeyDef where
  name : Str
  desc : Str
  values : Option FishTree
  excludes : List Str

/-- The arguments that the helper gets for a key. -/
def KeyDef.args (k : KeyDef) : FishKey := ⟨k.name, k.desc, k.values.map FishTree.run, joinWith [' '] k.excludes⟩

/-- A key that may be completed to: its name, and the separator if it takes a value. -/
def KeyDef.text (k : KeyDef) (sep : Char) : Str := k.name ++ (if k.values.isNone then [] else [sep])

/-- One of the finished pairs has a key that excludes `name`. -/
def KeyExcluded (keys : List KeyDef) (sep1 sep2 : Char) (w name : Str) : Prop :=
  ∃ pair ∈ finished sep1 w, ∃ k ∈ keys, k.name = keyOf sep2 pair ∧ name ∈ k.excludes

/-- A pair that is being typed, `p`: behind the separator, the value of the key is completed; before it, the key. -/
def PairWanted (keys : List KeyDef) (sep : Char) (excluded : Str → Prop) (p : Str) (c : Str × Str) : Prop :=
  if sep ∈ p then
    ∃ k ∈ keys, ∃ t value v d, k.values = some t ∧ p = k.name ++ sep :: value ∧ sep ∉ k.name ∧
      Wanted t value (v, d) ∧ c = (k.name ++ sep :: v, d)
  else ∃ k ∈ keys, ¬ excluded k.name ∧ p <+: k.text sep ∧ c = (k.text sep, k.desc)

/-- A list of pairs: the current pair is completed. -/
def PairsWanted (keys : List KeyDef) (sep1 sep2 : Char) (w : Str) (c : Str × Str) : Prop :=
  ∃ v d, PairWanted keys sep2 (KeyExcluded keys sep1 sep2 w) (current sep1 w) (v, d) ∧ c = (before sep1 w ++ v, d)

/-- Keys that can be told apart and written in a text. -/
def KeysOk (keys : List KeyDef) : Prop :=
  (keys.map (·.name)).Nodup ∧
  (∀ k ∈ keys, k.name ≠ [] ∧ (∀ e ∈ k.excludes, ' ' ∉ e)) ∧
  (∀ k ∈ keys, ∀ t, k.values = some t → t.Simple ∧ t.Ok)

/-- The value that is being typed can be told from the text before it: it has no separator, or the completers do not
look at it. -/
def ValueOk (keys : List KeyDef) (sep : Char) (p : Str) : Prop :=
  (∀ n value, p = n ++ sep :: value → sep ∉ n → sep ∉ value) ∨ ∀ k ∈ keys, ∀ t, k.values = some t → t.Blind

end CC
