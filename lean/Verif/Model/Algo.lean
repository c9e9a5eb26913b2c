import Verif.Model.Py
/-!
# Model of `crazy_complete/algo.py`
-/

namespace CC

/-- `flatten`, `algo.py` 9-15. -/
def flattenLists {α} : List (List α) → List α
  | [] => []
  | x :: xs => x ++ flattenLists xs

/-- The loop of `uniq`, `algo.py` 21-27; `seen` is the set of items met so far. -/
def uniqGo {α} [DecidableEq α] (seen : List α) : List α → List α
  | [] => []
  | x :: xs => if x ∈ seen then uniqGo seen xs else x :: uniqGo (x :: seen) xs

/-- `uniq`, `algo.py` 18-27. -/
def uniq {α} [DecidableEq α] (l : List α) : List α := uniqGo [] l

/-- `partition`, `algo.py` 30-51. -/
def partitionBy {α} (p : α → Bool) : List α → List α × List α
  | [] => ([], [])
  | x :: xs => let r := partitionBy p xs
    if p x then (x :: r.1, r.2) else (r.1, x :: r.2)

/-- `result[val].append(item)` or `result[val] = [item]`, `algo.py` 73-76, on an ordered
dictionary given as an association list. -/
def groupInsert {α κ} [DecidableEq κ] (k : κ) (x : α) : List (κ × List α) → List (κ × List α)
  | [] => [(k, [x])]
  | (k', xs) :: r => if k = k' then (k', xs ++ [x]) :: r else (k', xs) :: groupInsert k x r

/-- `group_by`, `algo.py` 54-78. -/
def groupBy {α κ} [DecidableEq κ] (f : α → κ) (l : List α) : List (κ × List α) :=
  l.foldl (fun r x => groupInsert (f x) x r) []

/-- `all(b - a == 1 for a, b in zip(s, s[1:]))`, `algo.py` 88. -/
def stepsOfOne : List Int → Bool
  | a :: b :: r => b - a == 1 && stepsOfOne (b :: r)
  | _ => true

/-- Insert a number in a sorted list. -/
def insertInt (a : Int) : List Int → List Int
  | [] => [a]
  | b :: bs => if a ≤ b then a :: b :: bs else b :: insertInt a bs

/-- Python's `sorted` on numbers. The order is total and antisymmetric, so every sorting algorithm
gives the same list. -/
def sortInts (l : List Int) : List Int := l.foldr insertInt []

/-- `numbers_are_contiguous`, `algo.py` 81-88. -/
def numbersAreContiguous (l : List Int) : Bool := !l.isEmpty && stepsOfOne (sortInts l)

/-- `SparseList._extend_to`, `algo.py` 101-103. -/
def sparseExtend {α} (dflt : α) (l : List α) (i : Nat) : List α :=
  if i ≥ l.length then l ++ List.replicate (i + 1 - l.length) dflt else l

/-- `SparseList.__setitem__` for an index that is not negative, `algo.py` 112-114. -/
def sparseSet {α} (dflt : α) (l : List α) (i : Nat) (v : α) : List α :=
  (sparseExtend dflt l i).set i v

/-- `SparseList.insert` for an index that is not negative, `algo.py` 116-118. -/
def sparseInsert {α} (dflt : α) (l : List α) (i : Nat) (v : α) : List α :=
  (sparseExtend dflt l i).insertIdx i v

end CC
