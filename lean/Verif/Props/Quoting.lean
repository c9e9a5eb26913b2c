import Verif.Lemmas.Quoting
/-!
# C01, C02, C04: quoting for POSIX shells, identifiers
-/

namespace CC

open Ident

/-- **C01.** Reading the quoted text as a shell word gives back exactly the string, whatever
text `t` follows: the reader is then inside the word `s`, outside all quotes. -/
theorem C01_quote_in_context (s t : Str) :
    Posix.read .gap [] (quote s ++ t) = Posix.read .word s t :=
  read_quote_gap s t

/-- **C01.** The quoted text is one word, equal to the string. -/
theorem C01_quote_roundtrip (s : Str) : Posix.words (quote s) = some [s] := by
  have := read_quote_gap s []
  simp only [List.append_nil] at this
  simp [Posix.words, this, Posix.read]

/-- **C01**, inside a larger word: quoting may be glued to any text already read. -/
theorem C01_quote_concat (acc s t : Str) :
    Posix.read .word acc (quote s ++ t) = Posix.read .word (acc ++ s) t :=
  read_quote_word acc s t

/-- **C01**, `quote_empty_string=False`: only the empty string is treated differently,
it yields no text at all. -/
theorem C01_quote_empty_flag (s : Str) :
    quote s false = if s = [] then [] else quote s := by
  cases s <;> simp [quote]

/-- Consequence: quoting is injective, no two strings have the same quoted form. -/
theorem C01_quote_injective (s t : Str) (h : quote s = quote t) : s = t := by
  have h1 := C01_quote_roundtrip s
  rw [h, C01_quote_roundtrip t] at h1
  simpa using h1.symm

-- The four branches of `quote` are all exercised:
example : quote (S "--foo") = S "--foo" := by decide
example : quote (S "") = S "''" := by decide
example : quote (S "a b$") = S "'a b$'" := by decide
example : quote (S "it's $5") = S "\"it's \\$5\"" := by decide
example : quote (S "'\"") = S "''\"'\"'\"'" := by decide

/-- **C02.** Splitting the joined text gives back the argument list. -/
theorem C02_join_quoted_roundtrip (args : List Str) :
    Posix.words (joinQuoted args) = some args :=
  read_join args

example : joinQuoted [S "a b", S "", S "c'd"] = S "'a b' '' \"c'd\"" := by decide

/-- **C04.** The result is empty or a valid identifier. -/
theorem C04_make_identifier_valid (s : Str) :
    makeIdentifier s = [] ∨ IsShellIdentifier (makeIdentifier s) := by
  unfold makeIdentifier
  have hmem : ∀ d ∈ collapseUnderscores ((s.map (fun c => if c = '-' then '_' else c)).filter
      (fun c => Char.isAlphanum c || c == '_')), Char.isAlphanum d = true ∨ d = '_' := by
    intro d hd
    have := (List.mem_filter.mp (collapse_subset hd)).2
    simpa using this
  simp only
  split
  · exact Or.inl rfl
  · rename_i c cs heq
    rw [heq] at hmem
    right
    split
    · exact ⟨'_', c :: cs, rfl, Or.inr rfl, hmem⟩
    · rename_i hd
      refine ⟨c, cs, rfl, ?_, fun d hd' => hmem d (by simp [hd'])⟩
      rcases hmem c (by simp) with h | h
      · exact Or.inl (by simp [Char.isAlphanum] at h; rcases h with h | h
                         · exact h
                         · simp [h] at hd)
      · exact Or.inr h

/-- **C04.** The result is empty only if the input has no letter, digit, dash or underscore. -/
theorem C04_make_identifier_empty (s : Str) :
    makeIdentifier s = [] ↔ ∀ c ∈ s, c.isAlphanum = false ∧ c ≠ '-' ∧ c ≠ '_' := by
  have hc : ∀ t, collapseUnderscores t = [] ↔ t = [] := by
    intro t
    cases t with
    | nil => simp [collapseUnderscores]
    | cons a as => 
      simp only [collapseUnderscores]
      split
      · split <;> simp
      · simp
  have : makeIdentifier s = [] ↔ (s.map (fun c => if c = '-' then '_' else c)).filter
      (fun c => Char.isAlphanum c || c == '_') = [] := by
    refine Iff.trans ?_ (hc _)
    unfold makeIdentifier
    simp only
    split
    · rename_i h; rw [h]
    · rename_i h; rw [h]; split <;> simp
  rw [this]
  simp only [List.filter_eq_nil_iff, List.mem_map]
  constructor
  · intro h c hcs
    have h2 := h (if c = '-' then '_' else c) ⟨c, hcs, rfl⟩
    by_cases hd : c = '-'
    · subst hd; simp at h2
    · simp [hd] at h2; exact ⟨h2.1, hd, h2.2⟩
  · rintro h _ ⟨a, ha, rfl⟩
    have := h a ha
    simp [this]

/-- **C04.** Two consecutive underscores never occur. -/
theorem C04_no_double_underscore (s : Str) : noDoubleUnderscore (makeIdentifier s) = true := by
  unfold makeIdentifier
  simp only
  have h := collapse_nd ((s.map (fun c => if c = '-' then '_' else c)).filter
      (fun c => Char.isAlphanum c || c == '_'))
  split
  · rfl
  · rename_i c cs heq
    rw [heq] at h
    split
    · apply nd_cons h
      rename_i hd
      intro _ hh
      simp at hh; subst hh
      exact absurd hd (by decide)
    · exact h

/-- **C04.** Letters and digits survive, in order. -/
theorem C04_letters_survive (s : Str) :
    (makeIdentifier s).filter Char.isAlphanum = s.filter Char.isAlphanum := by
  have hu : Char.isAlphanum '_' = false := by decide
  have hm : Char.isAlphanum '-' = false := by decide
  have key : (collapseUnderscores ((s.map (fun c => if c = '-' then '_' else c)).filter
      (fun c => Char.isAlphanum c || c == '_'))).filter Char.isAlphanum = s.filter Char.isAlphanum := by
    rw [collapse_filter _ _ hu, List.filter_filter]
    induction s with
    | nil => rfl
    | cons x xs ih =>
      by_cases hx : x = '-'
      · subst hx; simp [hu, hm] at ih ⊢; exact ih
      · simp [hx, List.filter_cons] at ih ⊢
        rw [ih]
        cases Char.isAlphanum x <;> simp
  unfold makeIdentifier
  simp only
  split
  · rename_i h; rw [h] at key; exact key
  · rename_i c cs heq
    rw [heq] at key
    split
    · simp only [List.filter_cons, hu] at key ⊢; exact key
    · exact key

/-- **C04.** Applying it twice is the same as once. -/
theorem C04_make_identifier_idempotent (s : Str) :
    makeIdentifier (makeIdentifier s) = makeIdentifier s := by
  have hv := C04_make_identifier_valid s
  have hn := C04_no_double_underscore s
  generalize makeIdentifier s = t at hv hn
  rcases hv with rfl | ⟨c, cs, rfl, h1, h2⟩
  · rfl
  · have hall : ∀ d ∈ c :: cs, Char.isAlphanum d = true ∨ d = '_' := by
      intro d hd
      simp only [List.mem_cons] at hd
      rcases hd with rfl | hd
      · rcases h1 with h | h
        · exact Or.inl (by simp [Char.isAlphanum, h])
        · exact Or.inr h
      · exact h2 d hd
    have hm : (c :: cs).map (fun c => if c = '-' then '_' else c) = c :: cs := by
      refine (List.map_congr_left ?_).trans (List.map_id _)
      intro d hd
      have : d ≠ '-' := by
        rintro rfl
        rcases hall _ hd with h | h
        · exact absurd h (by decide)
        · exact absurd h (by decide)
      simp [this]
    have hf : (c :: cs).filter (fun c => Char.isAlphanum c || c == '_') = c :: cs := by
      apply List.filter_eq_self.mpr
      intro d hd
      simpa using hall d hd
    have hd : isAsciiDigit c = false := by
      rcases h1 with h | h
      · exact alpha_not_digit h
      · subst h; decide
    unfold makeIdentifier
    simp only [hm, hf, collapse_id hn, hd, Bool.false_eq_true, if_false]

example : makeIdentifier (S "--1-foo--bar é") = S "_1_foo_bar" := by decide
example : makeIdentifier (S "1a") = S "_1a" := by decide

end CC
