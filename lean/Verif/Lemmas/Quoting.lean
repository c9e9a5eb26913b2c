import Verif.Model.Shell
import Verif.Spec.Posix
import Verif.Spec.Ident

namespace CC

open Ident

theorem replaceChar_eq_flatMap (c : Char) (r s : Str) :
    replaceChar c r s = s.flatMap (fun x => if x = c then r else [x]) := by
  induction s with
  | nil => rfl
  | cons x xs ih => simp only [replaceChar, List.flatMap_cons, ih]; split <;> simp

theorem replaceChar_append (c : Char) (r s t : Str) :
    replaceChar c r (s ++ t) = replaceChar c r s ++ replaceChar c r t := by
  simp [replaceChar_eq_flatMap]

theorem escapeDouble_cons (c : Char) (s : Str) :
    escapeDouble (c :: s) =
      (if c = '\\' ∨ c = '$' ∨ c = '`' then ['\\', c] else [c]) ++ escapeDouble s := by
  unfold escapeDouble
  by_cases h1 : c = '\\'
  · subst h1; simp [replaceChar]
  · by_cases h2 : c = '$'
    · subst h2; simp [replaceChar]
    · by_cases h3 : c = '`'
      · subst h3; simp [replaceChar]
      · simp [replaceChar, h1, h2, h3]

theorem needsQuote_false {s : Str} (h : needsQuote s = false) :
    s ≠ [] ∧ ∀ c ∈ s, isSafeChar c = true := by
  simp [needsQuote] at h
  refine ⟨?_, h.2⟩
  intro h'; simp [h'] at h

theorem safe_not_special {c : Char} (h : isSafeChar c = true) :
    Posix.blank c = false ∧ c ≠ '\'' ∧ c ≠ '"' ∧ c ≠ '\\' ∧
    Posix.special.contains c = false := by
  refine ⟨?_, ?_, ?_, ?_, ?_⟩
  · simp only [Posix.blank, Bool.or_eq_false_iff, beq_eq_false_iff_ne]
    refine ⟨⟨?_, ?_⟩, ?_⟩ <;> rintro rfl <;> revert h <;> decide
  · rintro rfl; revert h; decide
  · rintro rfl; revert h; decide
  · rintro rfl; revert h; decide
  · rw [Bool.eq_false_iff]; intro hc
    simp only [Posix.special, List.contains_iff_mem, List.mem_cons, List.not_mem_nil, or_false] at hc
    rcases hc with h1 | h1 | h1 | h1 | h1 | h1 | h1 | h1 | h1 | h1 | h1 | h1 | h1 | h1 | h1 | h1 |
      h1 | h1 | h1 <;> subst h1 <;> revert h <;> decide

theorem read_word_safe (s t acc : Str) (h : ∀ c ∈ s, isSafeChar c = true) :
    Posix.read .word acc (s ++ t) = Posix.read .word (acc ++ s) t := by
  induction s generalizing acc with
  | nil => simp
  | cons c cs ih =>
    have hc := safe_not_special (h c (by simp))
    simp only [List.cons_append, Posix.read, hc, Bool.false_eq_true, if_false]
    rw [ih _ (fun x hx => h x (by simp [hx]))]
    simp

theorem read_gap_safe (s t : Str) (h : ∀ c ∈ s, isSafeChar c = true) (hne : s ≠ []) :
    Posix.read .gap [] (s ++ t) = Posix.read .word s t := by
  cases s with
  | nil => exact absurd rfl hne
  | cons c cs =>
    have hc := safe_not_special (h c (by simp))
    simp only [List.cons_append, Posix.read, hc, Bool.false_eq_true, if_false]
    rw [read_word_safe _ _ _ (fun x hx => h x (by simp [hx]))]
    simp

theorem read_sq (s t acc : Str) (h : '\'' ∉ s) :
    Posix.read .sq acc (s ++ '\'' :: t) = Posix.read .word (acc ++ s) t := by
  induction s generalizing acc with
  | nil => simp [Posix.read]
  | cons c cs ih =>
    have hc : c ≠ '\'' := by intro hh; apply h; simp [hh]
    simp only [List.cons_append, Posix.read, hc, if_false]
    rw [ih _ (fun hx => h (by simp [hx]))]
    simp

theorem read_dq (s t acc : Str) (h : '"' ∉ s) :
    Posix.read .dq acc (escapeDouble s ++ '"' :: t) = Posix.read .word (acc ++ s) t := by
  induction s generalizing acc with
  | nil => simp [Posix.read, escapeDouble, replaceChar]
  | cons c cs ih =>
    have hc : c ≠ '"' := by intro hh; apply h; simp [hh]
    have ih' := fun acc => ih acc (fun hx => h (by simp [hx]))
    rw [escapeDouble_cons]
    split
    · rename_i h1
      simp only [List.cons_append, List.nil_append, Posix.read]
      rcases h1 with rfl | rfl | rfl <;> simp [ih']
    · rename_i h1
      have h2 : ¬ (c = '$' ∨ c = '`') := fun hh => h1 (Or.inr hh)
      have h3 : c ≠ '\\' := fun hh => h1 (Or.inl hh)
      simp only [List.cons_append, List.nil_append, Posix.read, hc, h2, h3, if_false]
      rw [ih']; simp

theorem read_sq_mixed (s t acc : Str) :
    Posix.read .sq acc (replaceChar '\'' ['\'', '"', '\'', '"', '\''] s ++ '\'' :: t)
      = Posix.read .word (acc ++ s) t := by
  induction s generalizing acc with
  | nil => simp [Posix.read, replaceChar]
  | cons c cs ih =>
    simp only [replaceChar]
    split
    · rename_i h; subst h
      simp [Posix.read, Posix.blank, ih]
    · rename_i h
      simp [Posix.read, h, ih]

/-- The quoted text always reads as the string itself, wherever it stands. -/
theorem read_quote_gap (s t : Str) :
    Posix.read .gap [] (quote s ++ t) = Posix.read .word s t := by
  unfold quote
  simp only [Bool.not_true, Bool.and_false, Bool.false_eq_true, if_false]
  split
  · rename_i h
    have := needsQuote_false (by simpa using h)
    exact read_gap_safe s t this.2 this.1
  · split
    · rename_i h
      have h' : '\'' ∉ s := by simpa using h
      simp only [List.append_assoc, List.cons_append, List.nil_append, Posix.read]
      rw [read_sq _ _ _ h']; simp [Posix.blank]
    · split
      · rename_i h
        have h' : '"' ∉ s := by simpa using h
        simp only [List.append_assoc, List.cons_append, List.nil_append, Posix.read]
        rw [read_dq _ _ _ h']; simp [Posix.blank]
      · simp only [List.append_assoc, List.cons_append, List.nil_append, Posix.read]
        rw [read_sq_mixed]; simp [Posix.blank]

theorem read_quote_word (acc s t : Str) :
    Posix.read .word acc (quote s ++ t) = Posix.read .word (acc ++ s) t := by
  unfold quote
  simp only [Bool.not_true, Bool.and_false, Bool.false_eq_true, if_false]
  split
  · rename_i h
    have := needsQuote_false (by simpa using h)
    exact read_word_safe s t acc this.2
  · split
    · rename_i h
      have h' : '\'' ∉ s := by simpa using h
      simp only [List.append_assoc, List.cons_append, List.nil_append, Posix.read]
      rw [read_sq _ _ _ h']; simp [Posix.blank]
    · split
      · rename_i h
        have h' : '"' ∉ s := by simpa using h
        simp only [List.append_assoc, List.cons_append, List.nil_append, Posix.read]
        rw [read_dq _ _ _ h']; simp [Posix.blank]
      · simp only [List.append_assoc, List.cons_append, List.nil_append, Posix.read]
        rw [read_sq_mixed]; simp [Posix.blank]

theorem read_join (args : List Str) :
    Posix.read .gap [] (joinQuoted args) = some args := by
  unfold joinQuoted
  match args with
  | [] => simp [joinWith, Posix.read]
  | [x] =>
    have := read_quote_gap x []
    simp only [List.append_nil] at this
    simp [joinWith, this, Posix.read]
  | x :: y :: xs =>
    have ih := read_join (y :: xs)
    unfold joinQuoted at ih
    simp only [List.map_cons, joinWith, List.append_assoc, List.cons_append, List.nil_append] at ih ⊢
    rw [read_quote_gap]
    simp only [Posix.read, Posix.blank]
    simp [ih]

/-! ### make_identifier -/

theorem alpha_not_digit {c : Char} (h : c.isAlpha = true) : c.isDigit = false := by
  simp only [Char.isAlpha, Char.isUpper, Char.isLower, Char.isDigit, Bool.or_eq_true,
    decide_eq_true_eq, Bool.and_eq_true, Bool.and_eq_false_iff, decide_eq_false_iff_not,
    ge_iff_le, UInt32.le_iff_toNat_le] at h ⊢
  have e1 : 'A'.val.toNat = 65 := rfl
  have e2 : 'a'.val.toNat = 97 := rfl
  have e3 : '9'.val.toNat = 57 := rfl
  omega

theorem collapse_subset {c : Char} {s : Str} (h : c ∈ collapseUnderscores s) : c ∈ s := by
  induction s with
  | nil => simp [collapseUnderscores] at h
  | cons x xs ih =>
    simp only [collapseUnderscores] at h
    by_cases hx : x = '_'
    · rw [if_pos hx] at h
      split at h
      · rename_i r heq
        simp only [List.mem_cons] at h ⊢
        rcases h with rfl | h
        · exact Or.inl hx.symm
        · exact Or.inr (ih (by rw [heq]; simp [h]))
      · simp only [List.mem_cons] at h ⊢
        rcases h with rfl | h
        · exact Or.inl hx.symm
        · exact Or.inr (ih h)
    · rw [if_neg hx] at h
      simp only [List.mem_cons] at h ⊢
      rcases h with rfl | h
      · exact Or.inl rfl
      · exact Or.inr (ih h)

theorem nd_cons {c : Char} {r : Str} (h : noDoubleUnderscore r = true)
    (h2 : c = '_' → r.head? ≠ some '_') : noDoubleUnderscore (c :: r) = true := by
  unfold noDoubleUnderscore
  split
  · rename_i heq
    simp at heq
    exact absurd (by simp [heq.2]) (h2 heq.1)
  · rename_i heq; simp at heq; rw [← heq.2]; exact h
  · rfl

theorem nd_tail {c : Char} {r : Str} (h : noDoubleUnderscore (c :: r) = true) :
    noDoubleUnderscore r = true ∧ (c = '_' → r.head? ≠ some '_') := by
  unfold noDoubleUnderscore at h
  split at h
  · cases h
  · rename_i hne heq
    simp at heq
    obtain ⟨rfl, rfl⟩ := heq
    refine ⟨h, ?_⟩
    rintro rfl hh
    cases r with
    | nil => simp at hh
    | cons a as => simp at hh; subst hh; exact hne _ rfl rfl
  · simp at *

theorem collapse_nd (s : Str) : noDoubleUnderscore (collapseUnderscores s) = true := by
  induction s with
  | nil => rfl
  | cons x xs ih =>
    simp only [collapseUnderscores]
    split
    · split
      · rename_i heq; rw [heq] at ih; exact ih
      · rename_i hne
        apply nd_cons ih
        intro _ hh
        cases hc : collapseUnderscores xs with
        | nil => simp [hc] at hh
        | cons a as => simp [hc] at hh; subst hh; exact hne _ hc
    · apply nd_cons ih
      intro h; contradiction

theorem collapse_id {s : Str} (h : noDoubleUnderscore s = true) : collapseUnderscores s = s := by
  induction s with
  | nil => rfl
  | cons x xs ih =>
    have ht := nd_tail h
    simp only [collapseUnderscores, ih ht.1]
    split
    · rename_i hx
      subst hx
      split
      · exact absurd rfl (ht.2 rfl)
      · rfl
    · rfl

theorem collapse_filter (s : Str) (p : Char → Bool) (hp : p '_' = false) :
    (collapseUnderscores s).filter p = s.filter p := by
  induction s with
  | nil => rfl
  | cons x xs ih =>
    simp only [collapseUnderscores]
    split
    · rename_i hx; subst hx
      split
      · rename_i heq; rw [heq] at ih
        simp [hp] at ih ⊢; exact ih
      · simp [hp, ih]
    · simp only [List.filter_cons, ih]

end CC
