import Verif.Spec.HelpText

/-! Lemmas about the help parser. -/

namespace CC
open HelpText

theorem isSpTab_iff (c : Char) : isSpTab c = true ↔ c = ' ' ∨ c = '\t' := by
  simp [isSpTab]

theorem isDelimChar_iff (c : Char) : isDelimChar c = true ↔ c = ',' ∨ c = '|' := by
  simp [isDelimChar]

theorem eatLine_append (s : Str) : (eatLine s).1 ++ (eatLine s).2 = s := by
  induction s with
  | nil => rfl
  | cons c cs ih =>
    simp only [eatLine]
    split
    · rfl
    · simp [ih]

theorem eatLine_line (s : Str) : Line (eatLine s).1 := by
  have key : (∃ l, (eatLine s).1 = l ++ ['\n'] ∧ '\n' ∉ l) ∨ '\n' ∉ (eatLine s).1 := by
    induction s with
    | nil => right; simp [eatLine]
    | cons c cs ih =>
      simp only [eatLine]
      split
      · rename_i hc
        left; exact ⟨[], by simp [hc], by simp⟩
      · rename_i hc
        rcases ih with ⟨l, h1, h2⟩ | h
        · left
          refine ⟨c :: l, by simp [h1], ?_⟩
          simp only [List.mem_cons, not_or]
          exact ⟨fun h => hc h.symm, h2⟩
        · right
          simp only [List.mem_cons, not_or]
          exact ⟨fun h => hc h.symm, h⟩
  rcases key with ⟨l, h1, h2⟩ | h
  · rw [h1]; exact Line.full h2
  · exact Line.open h

theorem eatLine_nonempty {s : Str} (h : s ≠ []) : (eatLine s).1 ≠ [] := by
  cases s with
  | nil => exact absurd rfl h
  | cons c cs => simp only [eatLine]; split <;> simp

/-- Reading a line that is written out. -/
theorem eatLine_written (l r : Str) (h : '\n' ∉ l) :
    eatLine (l ++ '\n' :: r) = (l ++ ['\n'], r) := by
  induction l with
  | nil => simp [eatLine]
  | cons c cs ih =>
    simp only [List.mem_cons, not_or] at h
    have hc : c ≠ '\n' := fun e => h.1 e.symm
    simp [eatLine, hc, ih h.2]

theorem eatSpace_append (s : Str) : (eatSpace s).1 ++ (eatSpace s).2 = s := by
  simp [eatSpace]

theorem mem_takeWhile_true {p : Char → Bool} {s : Str} {c : Char}
    (h : c ∈ s.takeWhile p) : p c = true := by
  induction s with
  | nil => simp at h
  | cons x xs ih =>
    simp only [List.takeWhile] at h
    split at h
    · rcases List.mem_cons.1 h with rfl | h
      · assumption
      · exact ih h
    · simp at h

theorem eatSpace_blanks (s : Str) : Blanks (eatSpace s).1 := by
  intro c hc
  exact (isSpTab_iff c).1 (mem_takeWhile_true hc)

theorem dropWhile_head {p : Char → Bool} {s : Str} {c : Char} {cs : Str}
    (h : s.dropWhile p = c :: cs) : p c = false := by
  induction s with
  | nil => simp at h
  | cons x xs ih =>
    simp only [List.dropWhile] at h
    split at h
    · exact ih h
    · simp only [List.cons.injEq] at h
      rename_i hx
      rw [← h.1]; simpa using hx

theorem eatSpace_head {s : Str} {c : Char} {cs : Str} (h : (eatSpace s).2 = c :: cs) :
    isSpTab c = false := dropWhile_head h

/-- Reading blanks that are written out. -/
theorem eatSpace_written (b r : Str) (hb : Blanks b)
    (hr : ∀ c, r.head? = some c → isSpTab c = false) : eatSpace (b ++ r) = (b, r) := by
  induction b with
  | nil =>
    cases r with
    | nil => rfl
    | cons c cs => simp [eatSpace, List.takeWhile, List.dropWhile, hr c rfl]
  | cons c cs ih =>
    have hc : isSpTab c = true := (isSpTab_iff c).2 (hb c (by simp))
    have ih := ih (fun x hx => hb x (by simp [hx]))
    simp only [eatSpace, Prod.mk.injEq] at ih
    simp [eatSpace, List.takeWhile, List.dropWhile, hc, ih.1, ih.2]

/-! ### Option words -/

theorem isBreakChar_iff (c : Char) :
    isBreakChar c = true ↔ c ∈ [' ', '\t', '\n', ',', '|', '=', '['] := by
  simp [isBreakChar, or_assoc]

theorem parseOptionString_some {s o s' : Str} (h : parseOptionString s = some (o, s')) :
    ∃ b, Blanks b ∧ OptionWord o ∧ s = b ++ o ++ s' := by
  unfold parseOptionString at h
  split at h
  · simp at h
  rename_i c cs hs
  split at h
  · rename_i hc
    dsimp only at h
    split at h
    · simp at h
    rename_i hno
    simp only [Option.some.injEq, Prod.mk.injEq] at h
    refine ⟨(eatSpace s).1, eatSpace_blanks s, ⟨?_, ?_, ?_, ?_⟩, ?_⟩
    · rw [← h.1]
      have : (!isBreakChar c) = true := by subst hc; decide
      simp only [List.takeWhile, this, List.head?_cons]
      rw [hc]
    · intro x hx
      rw [← h.1] at hx
      have := mem_takeWhile_true hx
      rw [← isBreakChar_iff]
      simpa using this
    · intro e; exact hno (Or.inl (h.1.trans e))
    · intro e; exact hno (Or.inr (h.1.trans e))
    · rw [← h.1, ← h.2, List.append_assoc, List.takeWhile_append_dropWhile, ← hs,
        eatSpace_append]
  · simp at h

theorem takeWhile_written {p : Char → Bool} (o r : Str) (ho : ∀ c ∈ o, p c = true)
    (hr : ∀ c, r.head? = some c → p c = false) :
    (o ++ r).takeWhile p = o ∧ (o ++ r).dropWhile p = r := by
  induction o with
  | nil =>
    cases r with
    | nil => exact ⟨rfl, rfl⟩
    | cons c cs => simp [List.takeWhile, List.dropWhile, hr c rfl]
  | cons c cs ih =>
    have ih := ih (fun x hx => ho x (by simp [hx]))
    simp [List.takeWhile, List.dropWhile, ho c (by simp), ih.1, ih.2]

/-- Reading an option word that is written out. -/
theorem parseOptionString_written (b o r : Str) (hb : Blanks b) (ho : OptionWord o)
    (hr : ∀ c, r.head? = some c → isBreakChar c = true) :
    parseOptionString (b ++ o ++ r) = some (o, r) := by
  cases o with
  | nil => have := ho.hyphen; simp at this
  | cons c cs =>
    have hc : c = '-' := by have := ho.hyphen; simpa using this
    have h1 : eatSpace (b ++ ((c :: cs) ++ r)) = (b, (c :: cs) ++ r) := by
      apply eatSpace_written b _ hb
      intro x hx
      simp only [List.cons_append, List.head?_cons, Option.some.injEq] at hx
      subst hx; subst hc; decide
    have h2 := takeWhile_written (p := fun x => !isBreakChar x) (c :: cs) r (by
      intro x hx
      have := ho.chars x hx
      rw [← isBreakChar_iff] at this
      simpa using this) (by
      intro x hx; simp [hr x hx])
    unfold parseOptionString
    rw [List.append_assoc, h1]
    simp only [List.cons_append] at h2 ⊢
    rw [if_pos hc, h2.1, h2.2]
    have : ¬ ((c :: cs) = ['-'] ∨ (c :: cs) = ['-', '-']) := by
      rintro (e | e)
      · exact ho.not_one e
      · exact ho.not_two e
    rw [if_neg this]

/-! ### Metavars -/

theorem closingOf_some (c q : Char) : closingOf c = some q ↔ Pair c q := by
  constructor
  · intro h
    unfold closingOf at h
    repeat' split at h
    all_goals first
      | (subst_vars; simp only [Option.some.injEq] at h; subst h; constructor)
      | simp at h
  · intro h; cases h <;> decide

theorem closingOf_none (c : Char) : closingOf c = none ↔ ∀ q, ¬ Pair c q := by
  constructor
  · intro h q hq
    rw [(closingOf_some c q).2 hq] at h
    simp at h
  · intro h
    cases hc : closingOf c with
    | none => rfl
    | some q => exact absurd ((closingOf_some c q).1 hc) (h q)

theorem metavarGo_append (st : Option Char) (s : Str) :
    (metavarGo st s).1 ++ (metavarGo st s).2 = s := by
  induction s generalizing st with
  | nil => cases st <;> rfl
  | cons c cs ih =>
    cases st with
    | some q => simp [metavarGo, ih]
    | none =>
      simp only [metavarGo]
      split
      · rfl
      · split
        · rfl
        · simp [ih]

/-- What is read is a metavar; inside a group, it is the rest of the group and
then a metavar. -/
theorem metavarGo_metavar (st : Option Char) (s : Str) :
    (st = none → Metavar false (metavarGo st s).1) ∧
    (∀ q, st = some q → ∃ body, q ∉ body ∧ ((metavarGo st s).1 = body ∨
      ∃ m, Metavar false m ∧ (metavarGo st s).1 = body ++ q :: m)) := by
  induction s generalizing st with
  | nil =>
    constructor
    · rintro rfl; exact Metavar.nil
    · rintro q rfl; exact ⟨[], by simp, Or.inl rfl⟩
  | cons c cs ih =>
    constructor
    · rintro rfl
      simp only [metavarGo]
      split
      · exact Metavar.nil
      rename_i h1
      split
      · exact Metavar.nil
      rename_i h2
      cases hc : closingOf c with
      | none =>
        refine Metavar.char ?_ ((ih none).1 rfl)
        simp only [Bool.or_eq_true, isSpTab_iff, beq_iff_eq, not_or] at h1
        simp only [isDelimChar_iff, not_or] at h2
        exact ⟨h1.1.1, h1.1.2, h1.2, h2.1, h2.2, (closingOf_none c).1 hc⟩
      | some q =>
        obtain ⟨body, hq, h | ⟨m, hm, h⟩⟩ := (ih (some q)).2 q rfl
        · rw [h]; exact Metavar.unclosed rfl ((closingOf_some c q).1 hc) hq
        · rw [h]; exact Metavar.group ((closingOf_some c q).1 hc) hq hm
    · rintro q rfl
      simp only [metavarGo]
      by_cases hc : c = q
      · rw [if_pos hc]
        exact ⟨[], by simp, Or.inr ⟨_, (ih none).1 rfl, by simp [hc]⟩⟩
      · rw [if_neg hc]
        obtain ⟨body, hq, h | ⟨m, hm, h⟩⟩ := (ih (some q)).2 q rfl
        · exact ⟨c :: body, by simp [hq]; exact fun e => hc e.symm, Or.inl (by rw [h])⟩
        · exact ⟨c :: body, by simp [hq]; exact fun e => hc e.symm,
            Or.inr ⟨m, hm, by rw [h]; simp⟩⟩

theorem parseMetavar_metavar (s : Str) : Metavar false (parseMetavar s).1 :=
  (metavarGo_metavar none s).1 rfl

theorem parseMetavar_append (s : Str) : (parseMetavar s).1 ++ (parseMetavar s).2 = s :=
  metavarGo_append none s

/-- What a metavar ends at. -/
def MetavarEnd (r : Str) : Prop :=
  ∀ c, r.head? = some c → c = ' ' ∨ c = '\t' ∨ c = '\n' ∨ c = ',' ∨ c = '|'

theorem metavarGo_group (q : Char) (body r : Str) (h : q ∉ body) :
    metavarGo (some q) (body ++ q :: r) =
      (body ++ q :: (metavarGo none r).1, (metavarGo none r).2) := by
  induction body with
  | nil => simp [metavarGo]
  | cons c cs ih =>
    simp only [List.mem_cons, not_or] at h
    have hc : c ≠ q := fun e => h.1 e.symm
    simp [metavarGo, hc, ih h.2]

theorem pair_opening {o q : Char} (h : Pair o q) :
    (isSpTab o || o == '\n') = false ∧ isDelimChar o = false := by
  cases h <;> decide

theorem metavarGo_end (r : Str) (h : MetavarEnd r) : metavarGo none r = ([], r) := by
  cases r with
  | nil => rfl
  | cons c cs =>
    have := h c rfl
    simp only [metavarGo]
    split
    · rfl
    · rename_i h1
      simp only [Bool.or_eq_true, isSpTab_iff, beq_iff_eq, not_or] at h1
      rw [if_pos]
      rw [isDelimChar_iff]
      rcases this with h | h | h | h | h
      · exact absurd h h1.1.1
      · exact absurd h h1.1.2
      · exact absurd h h1.2
      · exact Or.inl h
      · exact Or.inr h

/-- Reading a metavar that is written out. -/
theorem parseMetavar_written {m : Str} (hm : Metavar true m) (r : Str) (hr : MetavarEnd r) :
    parseMetavar (m ++ r) = (m, r) := by
  unfold parseMetavar
  induction hm with
  | nil => exact metavarGo_end r hr
  | @char c m hc _ ih =>
    obtain ⟨h1, h2, h3, h4, h5, h6⟩ := hc
    have e1 : (isSpTab c || c == '\n') = false := by
      simp [isSpTab, h1, h2, h3]
    have e2 : isDelimChar c = false := by simp [isDelimChar, h4, h5]
    simp [metavarGo, e1, e2, (closingOf_none c).2 h6, ih]
  | @group o q body m hp hq _ ih =>
    obtain ⟨e1, e2⟩ := pair_opening hp
    have : (o :: body ++ q :: m) ++ r = o :: (body ++ q :: (m ++ r)) := by simp
    rw [this]
    simp only [metavarGo, e1, e2, (closingOf_some o q).2 hp, metavarGo_group q body _ hq, ih]
    simp
  | unclosed h => exact absurd h (by decide)

end CC
