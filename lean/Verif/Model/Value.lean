import Verif.Model.Py
/-!
# Python values read from YAML or JSON

Modelled: None, bool, int, float, str, list/tuple and dict. Simplifications: a float is kept as its
text; keys are scalars (containers cannot be dict keys in Python); equality is structural, that is
`1 == True`, `1 == 1.0` and order-insensitive comparison of dicts are not modelled.
-/

namespace CC

/-- A dictionary key. -/
inductive Key where
  | none
  | bool (b : Bool)
  | int (i : Int)
  | float (text : Str)
  | str (s : Str)
  deriving DecidableEq, Repr

/-- A value. A dictionary is an association list in insertion order. -/
inductive Val where
  | none
  | bool (b : Bool)
  | int (i : Int)
  | float (text : Str)
  | str (s : Str)
  | list (items : List Val)
  | dict (entries : List (Key × Val))

mutual
/-- Structural equality of values. -/
def Val.beq : Val → Val → Bool
  | .none, .none => true
  | .bool a, .bool b => a == b
  | .int a, .int b => a == b
  | .float a, .float b => a == b
  | .str a, .str b => a == b
  | .list a, .list b => Val.beqList a b
  | .dict a, .dict b => Val.beqDict a b
  | _, _ => false
/-- Structural equality of lists of values. -/
def Val.beqList : List Val → List Val → Bool
  | [], [] => true
  | a :: as, b :: bs => a.beq b && Val.beqList as bs
  | _, _ => false
/-- Structural equality of dictionaries. -/
def Val.beqDict : List (Key × Val) → List (Key × Val) → Bool
  | [], [] => true
  | (k, a) :: as, (l, b) :: bs => decide (k = l) && a.beq b && Val.beqDict as bs
  | _, _ => false
end

mutual
theorem Val.beq_eq : ∀ (a b : Val), a.beq b = true ↔ a = b
  | .none, b => by cases b <;> simp [Val.beq]
  | .bool _, b => by cases b <;> simp [Val.beq]
  | .int _, b => by cases b <;> simp [Val.beq]
  | .float _, b => by cases b <;> simp [Val.beq]
  | .str _, b => by cases b <;> simp [Val.beq]
  | .list l, b => by cases b <;> simp [Val.beq, Val.beqList_eq l]
  | .dict l, b => by cases b <;> simp [Val.beq, Val.beqDict_eq l]
theorem Val.beqList_eq : ∀ (a b : List Val), Val.beqList a b = true ↔ a = b
  | [], b => by cases b <;> simp [Val.beqList]
  | x :: xs, b => by
    cases b with
    | nil => simp [Val.beqList]
    | cons y ys => simp [Val.beqList, Val.beq_eq x y, Val.beqList_eq xs ys]
theorem Val.beqDict_eq : ∀ (a b : List (Key × Val)), Val.beqDict a b = true ↔ a = b
  | [], b => by cases b <;> simp [Val.beqDict]
  | (k, x) :: xs, b => by
    cases b with
    | nil => simp [Val.beqDict]
    | cons y ys =>
      obtain ⟨l, y⟩ := y
      simp [Val.beqDict, Val.beq_eq x y, Val.beqDict_eq xs ys]
end

instance : DecidableEq Val := fun a b =>
  if h : a.beq b = true then isTrue ((Val.beq_eq a b).1 h)
  else isFalse (fun e => h ((Val.beq_eq a b).2 e))

/-- `key in d`. -/
def hasKey (d : List (Key × Val)) (k : Str) : Bool := d.any (fun e => decide (e.1 = .str k))

/-- `d.get(key)`, `none` if missing. -/
def getKey (d : List (Key × Val)) (k : Str) : Option Val :=
  (d.find? (fun e => decide (e.1 = .str k))).map (·.2)

/-- `d.pop(key)`: the remaining entries. -/
def delKey (d : List (Key × Val)) (k : Str) : List (Key × Val) :=
  d.filter (fun e => decide (e.1 ≠ .str k))

/-- `d[key] = v`: an existing key keeps its place, a new one goes to the end. -/
def setKey : List (Key × Val) → Key → Val → List (Key × Val)
  | [], k, v => [(k, v)]
  | (k', v') :: r, k, v => if k' = k then (k, v) :: r else (k', v') :: setKey r k v

end CC
