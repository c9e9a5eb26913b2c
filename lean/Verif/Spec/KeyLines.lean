import Verif.Spec.ItemList
/-!
# Keys and values that a command prints (specification, independent of the model)

The manual (`manual.py`, `key_value_list_exec` and `key_value_pair_exec`) says what the command prints. Called without
arguments it prints a line for each key: a star if the key may be repeated, the name, `=` if it takes a value or `=?`
if the value may be missing, a tab, a description, a tab, and the keys that may not come with it, separated by blanks.
For a single pair, a line has neither star nor excluded keys. Called with a key, it prints a line for each value: the
value, a tab and a description.
-/

namespace KeyLines
open ItemList

/-- Whether a key takes a value. -/
inductive Takes where
  | nothing | value | optional
  deriving DecidableEq, Repr

/-- A key that the command announces. -/
structure Key where
  repeatable : Bool := false
  name : List Char
  takes : Takes := .nothing
  desc : List Char
  excludes : List (List Char) := []
  deriving DecidableEq, Repr

/-- Words separated by blanks. -/
def spaced : List (List Char) → List Char
  | [] => []
  | [w] => w
  | w :: ws => w ++ ' ' :: spaced ws

/-- The mark of a key that takes a value. -/
def Takes.mark : Takes → List Char
  | .nothing => []
  | .value => ['=']
  | .optional => ['=', '?']

/-- The line for a key of a list. -/
def Key.line (k : Key) : List Char :=
  (if k.repeatable then ['*'] else []) ++ k.name ++ k.takes.mark ++ '\t' :: (k.desc ++ '\t' :: spaced k.excludes)

/-- The line for a key of a pair. -/
def Key.pairLine (k : Key) : List Char := k.name ++ (if k.takes = .nothing then [] else ['=']) ++ '\t' :: k.desc

/-- The line for a value. -/
def valueLine (v : List Char × List Char) : List Char := v.1 ++ '\t' :: v.2

/-- The keys that may not come after this one: those it excludes, and itself if it may not be repeated. -/
def Key.rulesOut (k : Key) : List (List Char) := k.excludes ++ (if k.repeatable then [] else [k.name])

/-- The key as it is offered: with the separator if it needs a value. -/
def Key.shown (k : Key) (sep : Char) : List Char := k.name ++ (if k.takes = .value then [sep] else [])

/-- A name: letters, digits, `_`, `-` and `.`. -/
def Name (n : List Char) : Prop := n ≠ [] ∧ ∀ c ∈ n, c.isAlphanum = true ∨ c = '_' ∨ c = '-' ∨ c = '.'

/-- Keys that can be written in lines. -/
structure Ok (keys : List Key) : Prop where
  names : ∀ k ∈ keys, Name k.name
  distinct : (keys.map (·.name)).Nodup
  excludes : ∀ k ∈ keys, ∀ e ∈ k.excludes, Name e
  lines : ∀ k ∈ keys, '\t' ∉ k.desc ∧ '\n' ∉ k.desc

/-- A key is described if it excludes others. -/
def Described (keys : List Key) : Prop := ∀ k ∈ keys, k.desc = [] → k.excludes = []

/-- One of the finished pairs of the text rules out the name. -/
def RuledOut (keys : List Key) (sep1 sep2 : Char) (u name : List Char) : Prop :=
  ∃ pair ∈ finished sep1 u, ∃ k ∈ keys, k.name = (items sep2 pair).headD [] ∧ name ∈ k.rulesOut

/-- What a list of pairs is completed to, with descriptions: behind a key and the separator, the values of the key;
before it, the keys that are not ruled out. -/
def Wanted (keys : List Key) (values : List Char → List (List Char × List Char)) (sep1 sep2 : Char) (u : List Char)
    (c : List Char × List Char) : Prop :=
  if sep2 ∈ current sep1 u then
    ∃ n value v d, current sep1 u = n ++ sep2 :: value ∧ sep2 ∉ n ∧ (v, d) ∈ values n ∧ value <+: v ∧
      c = (before sep1 u ++ (n ++ sep2 :: v), d)
  else ∃ k ∈ keys, ¬ RuledOut keys sep1 sep2 u k.name ∧ current sep1 u <+: k.shown sep2 ∧
    c = (before sep1 u ++ k.shown sep2, k.desc)

end KeyLines
