import Verif.Lemmas.Quoting
import Verif.Lemmas.Grammar

namespace CC

open ShellGrammar (Tok)

theorem parseSingleQuote_closed (s t : Str) (h : '\'' ∉ s) :
    parseSingleQuote (s ++ '\'' :: t) = .ok (s, t) := by
  induction s with
  | nil => simp [parseSingleQuote]
  | cons c cs ih =>
    simp only [List.mem_cons, not_or] at h
    simp [parseSingleQuote, Ne.symm h.1, ih h.2]

theorem parseDoubleQuote_cons {c d : Char} {ds : Str} (h1 : c ≠ '\\') (h2 : c ≠ '"') :
    parseDoubleQuote (c :: d :: ds) = (match parseDoubleQuote (d :: ds) with
      | .ok (s, r) => .ok (c :: s, r)
      | .error e => .error e) := by
  simp only [parseDoubleQuote, h1, h2, if_false]
  rfl

theorem parseDoubleQuote_escaped (s t : Str) (h : '"' ∉ s) :
    parseDoubleQuote (escapeDouble s ++ '"' :: t) = .ok (s, t) := by
  induction s with
  | nil =>
    cases t <;> simp [parseDoubleQuote, escapeDouble, replaceChar]
  | cons c cs ih =>
    simp only [List.mem_cons, not_or] at h
    have ih' := ih h.2
    rw [escapeDouble_cons]
    split
    · simp only [List.cons_append, List.nil_append, parseDoubleQuote]
      simp [ih']
    · rename_i h1
      simp only [not_or] at h1
      generalize hx : escapeDouble cs ++ '"' :: t = x at ih'
      simp only [List.cons_append, List.nil_append, hx]
      cases x with
      | nil => simp at hx
      | cons d ds =>
        rw [parseDoubleQuote_cons h1.1 (Ne.symm h.1), ih']

theorem parseLiteral_nil (acc : Str) : parseLiteral acc [] = .ok (acc, []) := by
  rw [parseLiteral]

theorem parseLiteral_stop (acc : Str) (c : Char) (t : Str)
    (h : pyIsSpace c = true ∨ isOperatorChar c = true) (h1 : c ≠ '"') (h2 : c ≠ '\'') :
    parseLiteral acc (c :: t) = .ok (acc, c :: t) := by
  rw [parseLiteral]
  simp [h1, h2, h]

theorem parseLiteral_sq (acc s t : Str) (h : '\'' ∉ s) :
    parseLiteral acc ('\'' :: (s ++ '\'' :: t)) = parseLiteral (acc ++ s) t := by
  rw [parseLiteral]
  have hq := parseSingleQuote_closed s t h
  simp
  split
  · rename_i heq; rw [hq] at heq; simp at heq; rw [heq.1, heq.2]
  · rename_i heq; rw [hq] at heq; cases heq

theorem parseLiteral_dq (acc s t : Str) (h : '"' ∉ s) :
    parseLiteral acc ('"' :: (escapeDouble s ++ '"' :: t)) = parseLiteral (acc ++ s) t := by
  rw [parseLiteral]
  have hq := parseDoubleQuote_escaped s t h
  simp
  split
  · rename_i heq; rw [hq] at heq; simp at heq; rw [heq.1, heq.2]
  · rename_i heq; rw [hq] at heq; cases heq

theorem safe_not_operator {c : Char} (h : isSafeChar c = true) :
    pyIsSpace c = false ∧ isOperatorChar c = false := by
  constructor
  · rw [Bool.eq_false_iff]; intro hs
    have hn : isSafeChar c = true → 33 ≤ c.toNat ∧ c.toNat ≤ 126 := by
      intro h
      simp only [isSafeChar, isAsciiAlnum, Char.isAlphanum, Char.isAlpha, Char.isUpper, Char.isLower,
        Char.isDigit, Bool.or_eq_true, Bool.and_eq_true, decide_eq_true_eq, beq_iff_eq, ge_iff_le,
        UInt32.le_iff_toNat_le] at h
      have e1 : 'A'.val.toNat = 65 := rfl
      have e2 : 'a'.val.toNat = 97 := rfl
      have e3 : '9'.val.toNat = 57 := rfl
      have e4 : '0'.val.toNat = 48 := rfl
      have e5 : 'z'.val.toNat = 122 := rfl
      have e6 : 'Z'.val.toNat = 90 := rfl
      have e7 : c.toNat = c.val.toNat := rfl
      rcases h with ((((((((((h | h) | h) | h) | h) | h) | h) | h) | h) | h) | h)
      · omega
      all_goals (subst h; decide)
    have := hn h
    simp only [pyIsSpace, Bool.or_eq_true, Bool.and_eq_true, decide_eq_true_eq, beq_iff_eq] at hs
    omega
  · rw [Bool.eq_false_iff]; intro hs
    simp only [isOperatorChar, Bool.or_eq_true, beq_iff_eq] at hs
    rcases hs with (((rfl | rfl) | rfl) | rfl) | rfl <;> revert h <;> decide

theorem parseLiteral_safe (acc s t : Str) (h : ∀ c ∈ s, isSafeChar c = true) :
    parseLiteral acc (s ++ t) = parseLiteral (acc ++ s) t := by
  induction s generalizing acc with
  | nil => simp
  | cons c cs ih =>
    have hc := safe_not_special (h c (by simp))
    have ho := safe_not_operator (h c (by simp))
    rw [List.cons_append, parseLiteral]
    simp only [hc, ho, if_false, Bool.or_false, Bool.false_eq_true]
    rw [ih _ (fun x hx => h x (by simp [hx]))]
    simp

theorem parseLiteral_mixed (acc s t : Str) :
    parseLiteral acc ('\'' :: (replaceChar '\'' ['\'', '"', '\'', '"', '\''] s ++ '\'' :: t))
      = parseLiteral (acc ++ s) t := by
  -- split off the part before the first single quote
  induction hn : s.length using Nat.strongRecOn generalizing acc s with
  | _ n ih =>
  subst hn
  by_cases hq : '\'' ∈ s
  · obtain ⟨p, q, rfl, hp⟩ : ∃ p q, s = p ++ '\'' :: q ∧ '\'' ∉ p := by
      clear ih
      induction s with
      | nil => simp at hq
      | cons c cs ihs =>
        by_cases hc : c = '\''
        · exact ⟨[], cs, by simp [hc], by simp⟩
        · have : '\'' ∈ cs := by simpa [Ne.symm hc] using hq
          obtain ⟨p, q, h1, h2⟩ := ihs this
          exact ⟨c :: p, q, by simp [h1], by simp [h2, Ne.symm hc]⟩
    have hrp : replaceChar '\'' ['\'', '"', '\'', '"', '\''] p = p := by
      clear ih hq
      induction p with
      | nil => rfl
      | cons x xs ihx =>
        simp only [List.mem_cons, not_or] at hp
        simp [replaceChar, Ne.symm hp.1, ihx hp.2]
    rw [replaceChar_append, hrp]
    simp only [replaceChar, if_true, List.append_assoc, List.cons_append, List.nil_append]
    rw [parseLiteral_sq _ _ _ hp]
    have hdq := parseLiteral_dq (acc ++ p) ['\''] ('\'' :: (replaceChar '\'' ['\'', '"', '\'', '"', '\''] q ++ '\'' :: t)) (by decide)
    have he : escapeDouble ['\''] = ['\''] := by decide
    rw [he] at hdq
    simp only [List.cons_append, List.nil_append] at hdq
    rw [hdq, ih _ (by simp; omega) _ _ rfl]
    simp
  · have : replaceChar '\'' ['\'', '"', '\'', '"', '\''] s = s := by
      clear ih
      induction s with
      | nil => rfl
      | cons x xs ihx =>
        simp only [List.mem_cons, not_or] at hq
        simp [replaceChar, Ne.symm hq.1, ihx hq.2]
    rw [this, parseLiteral_sq _ _ _ hq]

/-- The lexer's literal reader inverts quoting, wherever the quoted text stands. -/
theorem parseLiteral_quote (acc s t : Str) :
    parseLiteral acc (quote s ++ t) = parseLiteral (acc ++ s) t := by
  unfold quote
  simp only [Bool.not_true, Bool.and_false, Bool.false_eq_true, if_false]
  split
  · rename_i h
    have := needsQuote_false (by simpa using h)
    exact parseLiteral_safe acc s t this.2
  · split
    · rename_i h
      have h' : '\'' ∉ s := by simpa using h
      have := parseLiteral_sq acc s t h'
      simpa using this
    · split
      · rename_i h
        have h' : '"' ∉ s := by simpa using h
        have := parseLiteral_dq acc s t h'
        simpa using this
      · have := parseLiteral_mixed acc s t
        simpa using this

theorem quote_head (s : Str) : ∃ c cs, quote s = c :: cs ∧
    (isSafeChar c = true ∨ c = '\'' ∨ c = '"') := by
  unfold quote
  simp only [Bool.not_true, Bool.and_false, Bool.false_eq_true, if_false]
  split
  · rename_i h
    have := needsQuote_false (by simpa using h)
    cases s with
    | nil => simp at this
    | cons c cs => exact ⟨c, cs, rfl, Or.inl (this.2 c (by simp))⟩
  · split
    · exact ⟨_, _, rfl, by simp⟩
    · split
      · exact ⟨_, _, rfl, by simp⟩
      · exact ⟨_, _, rfl, by simp⟩

theorem parseToken_quote (s t : Str) :
    parseToken (quote s ++ t) = (match parseLiteral s t with
      | .ok (l, r) => .ok (some (.cmd l, r))
      | .error e => .error e) := by
  have hl := parseLiteral_quote [] s t
  obtain ⟨c, cs, hq, hc⟩ := quote_head s
  rw [hq] at hl ⊢
  simp only [List.cons_append, List.nil_append] at hl ⊢
  have hne : c ≠ '!' ∧ c ≠ '(' ∧ c ≠ ')' ∧ pyIsSpace c = false ∧ c ≠ '&' ∧ c ≠ '|' := by
    rcases hc with h | rfl | rfl
    · have := safe_not_operator h
      simp only [isOperatorChar, Bool.or_eq_false_iff, beq_eq_false_iff_ne] at this
      exact ⟨this.2.1.1.2, this.2.1.2, this.2.2, this.1, this.2.1.1.1.1, this.2.1.1.1.2⟩
    · decide
    · decide
  simp only [parseToken, hne, if_false, Bool.false_eq_true, hl]
  rfl

end CC
