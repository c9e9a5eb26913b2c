import Verif.Model.FishFile
/-!
# Lemmas: numbers in the scripts are read as they were written
-/

namespace CC

theorem digits_natStr (n : Nat) : Decimal.digits (natStr n) = some n := by
  unfold Decimal.digits
  rw [if_pos ⟨Nat.toDigits_ne_nil, List.all_eq_true.mpr (fun c hc => natStr_isDigit hc)⟩]
  congr 1
  exact Nat.ofDigitChars_toDigits (by decide) (by decide)

/-- The number that is written. -/
theorem number_intStr (i : Int) : Decimal.number (intStr i) = some i := by
  unfold intStr
  by_cases hi : i < 0
  · rw [if_pos hi]
    rw [Decimal.number, digits_natStr]
    show some (-((i.natAbs : Nat) : Int)) = some i
    congr 1
    omega
  · rw [if_neg hi]
    have hne : ∀ t, natStr i.natAbs ≠ '-' :: t := by
      intro t e
      have := natStr_isDigit (n := i.natAbs) (c := '-') (by rw [e]; simp)
      revert this; decide
    rw [Decimal.number]
    · rw [digits_natStr]
      show some ((i.natAbs : Nat) : Int) = some i
      congr 1
      omega
    · exact hne

theorem test_name (op : CmpOp) (a b : Int) : Decimal.testOperator op.testName a b = some (op.holds a b) := by
  cases op
  · rw [Decimal.testOperator, if_pos (by decide)]; rfl
  · rw [Decimal.testOperator, if_neg (by decide), if_pos (by decide)]; simp only [CmpOp.holds, bne, Option.some.injEq]; exact decide_not
  · rw [Decimal.testOperator, if_neg (by decide), if_neg (by decide), if_neg (by decide), if_pos (by decide)]; rfl
  · rw [Decimal.testOperator, if_neg (by decide), if_neg (by decide), if_neg (by decide), if_neg (by decide), if_neg (by decide), if_pos (by decide)]; rfl
  · rw [Decimal.testOperator, if_neg (by decide), if_neg (by decide), if_pos (by decide)]; rfl
  · rw [Decimal.testOperator, if_neg (by decide), if_neg (by decide), if_neg (by decide), if_neg (by decide), if_pos (by decide)]; rfl

theorem realName_inj {pre a b : Str} : realName pre a = realName pre b ↔ a = b := by
  unfold realName
  constructor
  · exact fun h => List.append_cancel_left h
  · rintro rfl; rfl

end CC
