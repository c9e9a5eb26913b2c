import Verif.Model.FishLists
/-!
# Model of the Fish helpers `key_value_list` and `key_value_pair`

Commands and candidates are as in `Model/FishLists.lean`. (Simplification: the separators are neither `*`, `?` nor a
backslash, which `case` would take for a part of a pattern.)
-/

namespace CC

/-- The arguments for one key: its name, its description, its function, and the keys that it excludes, separated by
spaces. The function is `none` if it is `false`. -/
structure FishKey where
  key : Str
  desc : Str
  func : Option FishAction
  excludes : Str

/-- `contains -i -- $key $keys`: the first index. -/
def keyIndex (es : List FishKey) (k : Str) : Option Nat := es.findIdx? (fun e => e.key = k)

/-- What a pair removes from `$remaining`, `fish_helpers.py` 682-694. -/
def pairRemoves (es : List FishKey) (sep2 : Char) (pair : Str) : List Nat :=
  match es.find? (fun e => e.key = beforeFirst sep2 pair) with
  | some e => (splitOn ' ' e.excludes).filterMap (keyIndex es)
  | none => []

/-- `$remaining`, `fish_helpers.py` 677-695. -/
def fishRemaining (es : List FishKey) (sep1 sep2 : Char) (comp : Str) : List FishKey :=
  (es.zipIdx.filter (fun x => !((splitOn sep1 comp).flatMap (pairRemoves es sep2)).contains x.2)).map (·.1)

/-- The line for a key, `fish_helpers.py` 699-703, 739-743 and 783-787. -/
def keyCandidate (head : Str) (sep2 : Char) (e : FishKey) : Str × Str :=
  (head ++ e.key ++ (if e.func.isNone then [] else [sep2]), e.desc)

/-- `call_func_for_key`, `fish_helpers.py` 708-718 and 762-772. The command `false` prints nothing. -/
def callForKey (es : List FishKey) (sep2 : Char) (key arg : Str) : List (Str × Str) :=
  match es.find? (fun e => e.key = key) with
  | some e =>
    match e.func with
    | some f => (f arg (some (.upTo sep2))).1
    | none => []
  | none => []

/-- `key_value_list SEP1 SEP2 …`, `fish_helpers.py` 660-746, with `$comp`: what is printed. -/
def keyValueLines (sep1 sep2 : Char) (es : List FishKey) (arg comp : Str) : List (Str × Str) :=
  if comp.isEmpty || comp.getLast? = some sep1 then (fishRemaining es sep1 sep2 comp).map (keyCandidate comp sep2)
  else
    let pair := (splitOn sep1 comp).getLastD []
    if pair.contains sep2 then
      let value := behindFirst sep2 pair
      (callForKey es sep2 (beforeFirst sep2 pair) arg).map
        (fun v => (comp.take (comp.length - value.length) ++ v.1, v.2))
    else (fishRemaining es sep1 sep2 comp).map (keyCandidate (comp.take (comp.length - pair.length)) sep2)

/-- `key_value_list SEP1 SEP2 …`, `fish_helpers.py` 660-746: what is printed. -/
def fishKeyValueList (sep1 sep2 : Char) (es : List FishKey) (st : Option Strip) (arg : Str) : List (Str × Str) :=
  keyValueLines sep1 sep2 es arg (completingArg st arg)

/-- `key_value_pair SEP …`, `fish_helpers.py` 748-790: what is printed. -/
def fishKeyValuePair (sep : Char) (es : List FishKey) (st : Option Strip) (arg : Str) : List (Str × Str) :=
  let comp := completingArg st arg
  if comp.contains sep then
    (callForKey es sep (beforeFirst sep comp) arg).map (fun v => (beforeFirst sep comp ++ [sep] ++ v.1, v.2))
  else es.map (keyCandidate [] sep)

end CC
