import Verif.Spec.TypedWord
import Verif.Spec.Posix
import Verif.Model.BashWords
import Verif.Lemmas.Quoting
/-!
# C80: the helper function `dequote`
-/

namespace CC
open Typed

/-- The loop for the quotes that are open. -/
def loopOf : Quoting → DqLoop
  | .bare => .outer
  | .single => .single
  | .double => .double

/-- The position of a break behind earlier text. -/
def shifted (n : Nat) (old : Option Nat) : Option Nat → Option Nat
  | some k => some (n + k)
  | none => old

theorem lastBreak_cons_quoted (breaks : List Char) (c : Char) (r : List (Char × Bool)) (n : Nat) (old : Option Nat) :
    shifted n old (lastBreak breaks ((c, true) :: r)) = shifted (n + 1) old (lastBreak breaks r) := by
  simp only [lastBreak]
  cases lastBreak breaks r <;> simp [shifted]; omega

theorem lastBreak_cons_plain (breaks : List Char) (c : Char) (hc : c ∉ breaks) (r : List (Char × Bool)) (n : Nat)
    (old : Option Nat) :
    shifted n old (lastBreak breaks ((c, false) :: r)) = shifted (n + 1) old (lastBreak breaks r) := by
  simp only [lastBreak]
  cases lastBreak breaks r <;> simp [shifted, hc]; omega

theorem lastBreak_cons_break (breaks : List Char) (c : Char) (hc : c ∈ breaks) (r : List (Char × Bool)) (n : Nat)
    (old : Option Nat) :
    shifted n old (lastBreak breaks ((c, false) :: r)) = shifted (n + 1) (some (n + 1)) (lastBreak breaks r) := by
  simp only [lastBreak]
  cases lastBreak breaks r <;> simp [shifted, hc]; omega

theorem dequoteLoop_spec (breaks : List Char) : ∀ (q : Quoting) (s : Str) (d : Dequoted), clean q s = true →
    d.inQuotes = decide (q ≠ .bare) →
    dequoteLoop breaks (loopOf q) s d =
      { result := d.result ++ (read q s).1.map (·.1),
        breakPos := shifted d.result.length d.breakPos (lastBreak breaks (read q s).1),
        inQuotes := decide ((read q s).2 ≠ .bare) } := by
  intro q s
  induction h : s.length using Nat.strongRecOn generalizing q s with
  | _ n ih =>
  subst h
  intro d hc hd
  cases s with
  | nil =>
    cases d
    simp only at hd
    subst hd
    cases q <;> simp [dequoteLoop, loopOf, Typed.read, shifted, lastBreak]
  | cons c cs =>
    cases q with
    | bare =>
      rw [Typed.read.eq_def, loopOf, dequoteLoop.eq_def]
      rw [clean.eq_def] at hc
      simp only at hc ⊢
      by_cases h1 : c = '\''
      · simp only [if_pos h1] at hc ⊢
        have := ih cs.length (by simp) .single cs rfl { d with inQuotes := true } hc (by simp)
        simp only [loopOf] at this
        rw [this]
      · by_cases h2 : c = '"'
        · simp only [if_neg h1, if_pos h2] at hc ⊢
          have := ih cs.length (by simp) .double cs rfl { d with inQuotes := true } hc (by simp)
          simp only [loopOf] at this
          rw [this]
        · by_cases h3 : c = '\\'
          · simp only [if_neg h1, if_neg h2, if_pos h3] at hc ⊢
            cases cs with
            | nil =>
              cases d
              simp only at hd
              subst hd
              simp [shifted, lastBreak]
            | cons x xs =>
              simp only [Bool.and_eq_true, bne_iff_ne] at hc
              simp only [if_neg hc.1]
              have := ih xs.length (by simp; omega) .bare xs rfl (d.put x) hc.2 (by simpa [Dequoted.put] using hd)
              simp only [loopOf] at this
              rw [this]
              simp [Dequoted.put, lastBreak_cons_quoted]
          · simp only [if_neg h1, if_neg h2, if_neg h3] at hc ⊢
            by_cases h4 : c ∈ breaks
            · simp only [h4, if_true]
              have := ih cs.length (by simp) .bare cs rfl { d.put c with breakPos := some (d.result.length + 1) } hc
                (by simpa [Dequoted.put] using hd)
              simp only [loopOf] at this
              rw [this]
              simp [Dequoted.put, lastBreak_cons_break _ _ h4]
            · simp only [h4, if_false]
              have := ih cs.length (by simp) .bare cs rfl (d.put c) hc (by simpa [Dequoted.put] using hd)
              simp only [loopOf] at this
              rw [this]
              simp [Dequoted.put, lastBreak_cons_plain _ _ h4]
    | single =>
      simp only [loopOf, dequoteLoop, Typed.read]
      simp only [clean] at hc
      by_cases h1 : c = '\''
      · simp only [if_pos h1] at hc ⊢
        have := ih cs.length (by simp) .bare cs rfl { d with inQuotes := false } hc (by simp)
        simp only [loopOf] at this
        rw [this]
      · simp only [if_neg h1] at hc ⊢
        have := ih cs.length (by simp) .single cs rfl (d.put c) hc (by simpa [Dequoted.put] using hd)
        simp only [loopOf] at this
        rw [this]
        simp [Dequoted.put, lastBreak_cons_quoted]
    | double =>
      rw [Typed.read.eq_def, loopOf, dequoteLoop.eq_def]
      rw [clean.eq_def] at hc
      simp only at hc ⊢
      by_cases h2 : c = '"'
      · simp only [if_pos h2] at hc ⊢
        have := ih cs.length (by simp) .bare cs rfl { d with inQuotes := false } hc (by simp)
        simp only [loopOf] at this
        rw [this]
      · by_cases h3 : c = '\\'
        · simp only [if_neg h2, if_pos h3] at hc ⊢
          cases cs with
          | nil =>
            cases d
            simp only at hd
            subst hd
            simp [shifted, lastBreak]
          | cons x xs =>
            simp only [Bool.and_eq_true] at hc
            have hn : x ≠ '\n' := by
              intro hn; rw [hn] at hc; exact absurd hc.1 (by decide)
            simp only [if_neg hn, if_pos hc.1]
            have := ih xs.length (by simp; omega) .double xs rfl (d.put x) hc.2 (by simpa [Dequoted.put] using hd)
            simp only [loopOf] at this
            rw [this]
            simp [Dequoted.put, lastBreak_cons_quoted]
        · simp only [if_neg h2, if_neg h3] at hc ⊢
          have := ih cs.length (by simp) .double cs rfl (d.put c) hc (by simpa [Dequoted.put] using hd)
          simp only [loopOf] at this
          rw [this]
          simp [Dequoted.put, lastBreak_cons_quoted]

/-- **C80.** `dequote` gives the text that the word stands for, the position behind its last unquoted break
character, and whether a quote is open. It is partial because of `clean`: in double quotes a backslash that
quotes nothing is lost (`C80_backslash`), and a continued line is not joined (`C80_newline`). -/
theorem C80_dequote_partial (breaks : List Char) (w : Str) (h : clean .bare w = true) :
    dequote breaks w = ⟨text w, lastBreak breaks (read .bare w).1, decide (quoting w ≠ .bare)⟩ := by
  have := dequoteLoop_spec breaks .bare w {} h rfl
  simp only [loopOf] at this
  unfold dequote
  rw [this]
  simp only [List.nil_append, List.length_nil, text, quoting]
  congr 1
  cases lastBreak breaks (read .bare w).1 <;> simp [shifted]

/-- What a text gives when it is read: whether it is clean, its text, the open quotes. -/
def seen (q : Quoting) (s : Str) : Bool × Str × Quoting := (clean q s, (read q s).1.map (·.1), (read q s).2)

theorem clean_bare_sq (s : Str) : clean .bare ('\'' :: s) = clean .single s := by
  rw [clean.eq_def]; simp

theorem clean_bare_dq (s : Str) : clean .bare ('"' :: s) = clean .double s := by
  rw [clean.eq_def]; simp

theorem read_bare_sq (s : Str) : read .bare ('\'' :: s) = read .single s := by
  rw [Typed.read.eq_def]; simp

theorem read_bare_dq (s : Str) : read .bare ('"' :: s) = read .double s := by
  rw [Typed.read.eq_def]; simp

theorem seen_single (s : Str) (h : '\'' ∉ s) : seen .single (s ++ ['\'']) = (true, s, .bare) := by
  induction s with
  | nil => decide
  | cons c cs ih =>
    have hc : c ≠ '\'' := by intro hh; apply h; simp [hh]
    have := ih (fun hx => h (by simp [hx]))
    simp only [seen, Prod.mk.injEq] at this ⊢
    simp [clean, Typed.read, hc, this]

theorem seen_double (s : Str) (h : '"' ∉ s) : seen .double (escapeDouble s ++ ['"']) = (true, s, .bare) := by
  induction s with
  | nil => decide
  | cons c cs ih =>
    have hc : c ≠ '"' := by intro hh; apply h; simp [hh]
    have := ih (fun hx => h (by simp [hx]))
    simp only [seen, Prod.mk.injEq] at this ⊢
    rw [escapeDouble_cons]
    split
    · rename_i h1
      rcases h1 with rfl | rfl | rfl <;> simp [clean, Typed.read, this, escapable]
    · rename_i h1
      simp only [not_or] at h1
      rw [clean.eq_def, Typed.read.eq_def]
      simp [hc, h1, this]

theorem seen_mixed (s : Str) :
    seen .single (replaceChar '\'' ['\'', '"', '\'', '"', '\''] s ++ ['\'']) = (true, s, .bare) := by
  induction s with
  | nil => decide
  | cons c cs ih =>
    simp only [seen, Prod.mk.injEq] at ih ⊢
    simp only [replaceChar]
    split
    · rename_i h
      subst h
      simp [clean, Typed.read, clean_bare_sq, read_bare_sq, ih]
    · rename_i h
      simp [clean, Typed.read, h, ih]

theorem seen_safe (s : Str) (h : ∀ c ∈ s, isSafeChar c = true) : seen .bare s = (true, s, .bare) := by
  induction s with
  | nil => rfl
  | cons c cs ih =>
    have := ih (fun x hx => h x (by simp [hx]))
    have hc := safe_not_special (h c (by simp))
    simp only [seen, Prod.mk.injEq] at this ⊢
    rw [clean.eq_def, Typed.read.eq_def]
    simp [hc, this]

theorem seen_quote (s : Str) : seen .bare (quote s) = (true, s, .bare) := by
  unfold quote
  simp only [Bool.not_true, Bool.and_false, Bool.false_eq_true, if_false]
  split
  · rename_i h
    exact seen_safe s (needsQuote_false (by simpa using h)).2
  · split
    · rename_i h
      have := seen_single s (by simpa using h)
      simpa [seen, clean_bare_sq, read_bare_sq, clean_bare_dq, read_bare_dq] using this
    · split
      · rename_i h
        have := seen_double s (by simpa using h)
        simpa [seen, clean_bare_sq, read_bare_sq, clean_bare_dq, read_bare_dq] using this
      · have := seen_mixed s
        simpa [seen, clean_bare_sq, read_bare_sq, clean_bare_dq, read_bare_dq] using this

/-- **C80.** A word that is quoted the way the generator quotes words gives the text itself. -/
theorem C80_quote (breaks : List Char) (t : Str) :
    (dequote breaks (quote t)).result = t ∧ (dequote breaks (quote t)).inQuotes = false := by
  have := seen_quote t
  simp only [seen, Prod.mk.injEq] at this
  rw [C80_dequote_partial breaks _ this.1]
  simp [text, quoting, this]

/-- A word with all kinds of quoting meets the hypothesis: `ab"c d"\ e:'f` -/
theorem C80_example : clean .bare (S "ab\"c d\"\\ e:'f") = true ∧
    dequote [':'] (S "ab\"c d\"\\ e:'f") = ⟨S "abc d e:f", some 8, true⟩ := by decide +kernel

/-- Bash takes `"a\b"` for the text with the backslash, `dequote` for the text without it. -/
theorem C80_backslash : text (S "\"a\\b\"") = S "a\\b" ∧ (dequote [] (S "\"a\\b\"")).result = S "ab" := by decide +kernel

/-- A continued line: Bash drops the backslash and the newline, `dequote` keeps the newline. -/
theorem C80_newline : text (S "a\\\nb") = S "ab" ∧ (dequote [] (S "a\\\nb")).result = S "a\nb" := by decide +kernel

end CC
