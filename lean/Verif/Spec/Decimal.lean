/-!
# Decimal numbers (specification, independent of the model)

How a shell reads the numbers that the generated scripts hold.
-/

namespace Decimal

/-- A decimal number. -/
def digits (t : List Char) : Option Nat :=
  if t ≠ [] ∧ t.all Char.isDigit = true then some (Nat.ofDigitChars 10 t 0) else none

/-- An integer. -/
def number : List Char → Option Int
  | '-' :: t => (digits t).map (fun n => -(n : Int))
  | t => (digits t).map (fun n => (n : Int))

/-- The comparisons of `test` in Fish. -/
def testOperator (op : List Char) (a b : Int) : Option Bool :=
  if op = "-eq".toList then some (decide (a = b))
  else if op = "-ne".toList then some (decide (a ≠ b))
  else if op = "-lt".toList then some (decide (a < b))
  else if op = "-le".toList then some (decide (a ≤ b))
  else if op = "-gt".toList then some (decide (b < a))
  else if op = "-ge".toList then some (decide (b ≤ a))
  else none

end Decimal
