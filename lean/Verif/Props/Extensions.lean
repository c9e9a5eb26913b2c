import Verif.Model.Extensions
import Verif.Lemmas.Regex
import Verif.Props.BashPatterns
/-!
# C12: file extension patterns
-/

namespace CC

theorem toNat_ofNat {n : Nat} (h : n < 0xd800) : (Char.ofNat n).toNat = n := by
  have hv : n.isValidChar := Or.inl h
  unfold Char.ofNat
  rw [dif_pos hv]
  rfl

theorem lower_toNat (c : Char) : (asciiLower c).toNat = if 65 ≤ c.toNat ∧ c.toNat ≤ 90 then c.toNat + 32 else c.toNat := by
  unfold asciiLower
  split
  · rw [toNat_ofNat (by omega)]
  · rfl

theorem upper_toNat (c : Char) : (asciiUpper c).toNat = if 97 ≤ c.toNat ∧ c.toNat ≤ 122 then c.toNat - 32 else c.toNat := by
  unfold asciiUpper
  split
  · rw [toNat_ofNat (by omega)]
  · rfl

theorem isAlpha_iff (c : Char) : c.isAlpha = true ↔ (65 ≤ c.toNat ∧ c.toNat ≤ 90) ∨ (97 ≤ c.toNat ∧ c.toNat ≤ 122) := by
  unfold Char.isAlpha Char.isUpper Char.isLower
  simp only [Bool.or_eq_true, Bool.and_eq_true, decide_eq_true_eq, ge_iff_le, UInt32.le_iff_toNat_le]
  exact Iff.rfl

theorem sameLetter {c d : Char} (h : c.isAlpha = true) :
    asciiLower d = asciiLower c ↔ d = asciiLower c ∨ d = asciiUpper c := by
  rw [isAlpha_iff] at h
  have e : ∀ a b : Char, a = b ↔ a.toNat = b.toNat := fun a b => ⟨fun h => by rw [h], char_eq_of_toNat⟩
  simp only [e, lower_toNat, upper_toNat]
  split <;> split <;> split <;> omega

theorem sameOther {c d : Char} (h : c.isAlpha = false) : asciiLower d = asciiLower c ↔ d = c := by
  have h' : ¬ ((65 ≤ c.toNat ∧ c.toNat ≤ 90) ∨ (97 ≤ c.toNat ∧ c.toNat ≤ 122)) := by
    rw [← isAlpha_iff]; simp [h]
  have e : ∀ a b : Char, a = b ↔ a.toNat = b.toNat := fun a b => ⟨fun h => by rw [h], char_eq_of_toNat⟩
  simp only [e, lower_toNat]
  split <;> split <;> omega

theorem letter_ne {c d : Char} (h : c.isAlpha = true)
    (hd : ¬ ((65 ≤ d.toNat ∧ d.toNat ≤ 90) ∨ (97 ≤ d.toNat ∧ d.toNat ≤ 122))) : ¬ c = d := by
  rintro rfl
  rw [isAlpha_iff] at h
  exact hd h

theorem alpha_lower {c : Char} (h : c.isAlpha = true) : (asciiLower c).isAlpha = true := by
  rw [isAlpha_iff] at *
  rw [lower_toNat]; split <;> omega

theorem alpha_upper {c : Char} (h : c.isAlpha = true) : (asciiUpper c).isAlpha = true := by
  rw [isAlpha_iff] at *
  rw [upper_toNat]; split <;> omega

theorem alpha_cls {c : Char} (h : c.isAlpha = true) : ClsChar caseCtx c ∧ c ≠ '!' ∧ c ≠ '^' := by
  have hne := @letter_ne c
  refine ⟨⟨?_, ?_⟩, hne h (by decide), hne h (by decide)⟩
  · simp only [S, String.reduceToList, List.mem_cons, List.not_mem_nil, or_false, not_or]
    exact ⟨hne h (by decide), hne h (by decide), hne h (by decide), hne h (by decide)⟩
  · simp only [caseCtx, S, String.reduceToList, List.contains_eq_mem, List.mem_cons, List.not_mem_nil, or_false,
      decide_eq_false_iff_not, not_or]
    refine ⟨hne h (by decide), hne h (by decide), hne h (by decide), hne h (by decide), hne h (by decide),
      hne h (by decide), hne h (by decide), hne h (by decide), hne h (by decide), hne h (by decide),
      hne h (by decide), hne h (by decide), hne h (by decide), hne h (by decide), hne h (by decide)⟩

theorem alpha_rx {c : Char} (h : c.isAlpha = true) : RxPlain c := by
  have hne := @letter_ne c
  simp only [RxPlain, S, String.reduceToList, List.mem_cons, List.not_mem_nil, or_false, not_or]
  refine ⟨hne h (by decide), hne h (by decide), hne h (by decide), hne h (by decide), hne h (by decide),
    hne h (by decide), hne h (by decide), hne h (by decide), hne h (by decide), hne h (by decide),
    hne h (by decide), hne h (by decide), hne h (by decide), hne h (by decide)⟩

theorem inRanges_two (a b c : Char) : inRanges [(a, a), (b, b)] c ↔ c = a ∨ c = b := by
  simp only [inRanges, List.mem_cons, List.not_mem_nil, or_false, exists_eq_or_imp, exists_eq_left]
  constructor
  · rintro (h | h)
    · exact Or.inl (char_eq_of_toNat (by omega))
    · exact Or.inr (char_eq_of_toNat (by omega))
  · rintro (rfl | rfl)
    · exact Or.inl ⟨Nat.le_refl _, Nat.le_refl _⟩
    · exact Or.inr ⟨Nat.le_refl _, Nat.le_refl _⟩

/-- One character of an extension. -/
theorem bash_ext_char {c : Char} (h : PlainChar c) :
    Readable caseCtx (if c.isAlpha then bothCases c else [c]) ∧
    ∀ w, Matches caseCtx (if c.isAlpha then bothCases c else [c]) w ↔ ∃ d, w = [d] ∧ asciiLower d = asciiLower c := by
  by_cases ha : c.isAlpha = true
  · rw [if_pos ha]
    have h1 := alpha_cls (alpha_lower ha)
    have h2 := alpha_cls (alpha_upper ha)
    have hr := reads_two (asciiLower c) (asciiUpper c) h1.1 h2.1 h1.2.1 h1.2.2
    refine ⟨⟨_, hr⟩, ?_⟩
    intro w
    unfold bothCases
    rw [matches_of_reads hr, seqLang_single]
    simp only [Glob.Lang, Bool.false_eq_true, if_false, inRanges_two, sameLetter ha]
  · simp only [Bool.not_eq_true] at ha
    simp only [ha, Bool.false_eq_true, if_false]
    refine ⟨⟨_, reads_lit h.lit⟩, ?_⟩
    intro w
    rw [matches_lit h.lit]
    simp only [sameOther ha, exists_eq_right]

theorem bash_extension {e : Str} (h : ∀ c ∈ e, PlainChar c) :
    Readable caseCtx (bashExtension e) ∧ ∀ w, Matches caseCtx (bashExtension e) w ↔ lower w = lower e := by
  induction e with
  | nil =>
    refine ⟨⟨_, reads_nil⟩, ?_⟩
    intro w
    simp only [bashExtension, List.flatMap_nil]
    rw [matches_nil]
    simp [lower]
  | cons c e ih =>
    have h1 := bash_ext_char (h c (by simp))
    have h2 := ih (fun x hx => h x (by simp [hx]))
    have he : bashExtension (c :: e) = (if c.isAlpha then bothCases c else [c]) ++ bashExtension e := rfl
    rw [he]
    refine ⟨readable_append h1.1 h2.1, ?_⟩
    intro w
    rw [matches_append h1.1 h2.1]
    simp only [h1.2, h2.2]
    constructor
    · rintro ⟨a, b, rfl, ⟨d, rfl, hd⟩, hb⟩
      simp [lower, hd] at hb ⊢
      exact hb
    · intro hw
      cases w with
      | nil => simp [lower] at hw
      | cons d w =>
        simp only [lower, List.map_cons, List.cons.injEq] at hw
        exact ⟨[d], w, rfl, ⟨d, rfl, hw.1⟩, hw.2⟩

/-- **C12, Bash** (partial): for every non-empty list of extensions made of ASCII characters without a
meaning of their own, Bash reads the pattern as one that matches exactly the words that equal one of
the extensions up to the case of letters, or, with `fuzzy`, begin with such a word. What is missing:
characters that are special in patterns are not escaped (`C12_bash_special_character`). -/
theorem C12_bash_partial (exts : List Str) (fuzzy : Bool) (hne : exts ≠ [])
    (h : ∀ e ∈ exts, ∀ c ∈ e, PlainChar c) :
    ∃ alts, readGlob caseCtx (bashExtensionPattern exts fuzzy) = some alts ∧
      ∀ w, Glob.AltLang alts w ↔
        ∃ e ∈ exts, ∃ a b, w = a ++ b ∧ lower a = lower e ∧ (fuzzy = false → b = []) := by
  have hat := matches_at (x := caseCtx) rfl (ts := exts.map bashExtension) (by simpa using hne)
    (by
      intro t ht
      obtain ⟨e, he, rfl⟩ := List.mem_map.1 ht
      exact (bash_extension (h e he)).1)
  have hatm : ∀ w, Matches caseCtx (['@', '('] ++ joinWith ['|'] (exts.map bashExtension) ++ [')']) w ↔
      ∃ e ∈ exts, lower w = lower e := by
    intro w
    rw [hat.2 w]
    simp only [List.mem_map]
    constructor
    · rintro ⟨t, ⟨e, he, rfl⟩, hm⟩
      exact ⟨e, he, ((bash_extension (h e he)).2 w).1 hm⟩
    · rintro ⟨e, he, hw⟩
      exact ⟨_, ⟨e, he, rfl⟩, ((bash_extension (h e he)).2 w).2 hw⟩
  unfold bashExtensionPattern
  cases fuzzy with
  | false =>
    simp only [Bool.false_eq_true, if_false, List.append_nil]
    obtain ⟨alts, h1, h2⟩ := readGlob_single hat.1 (by simp)
    refine ⟨alts, h1, ?_⟩
    intro w
    rw [h2 w, hatm w]
    constructor
    · rintro ⟨e, he, hw⟩; exact ⟨e, he, w, [], by simp, hw, fun _ => rfl⟩
    · rintro ⟨e, he, a, b, rfl, ha, hb⟩
      rw [hb trivial]; simpa using ⟨e, he, ha⟩
  | true =>
    simp only [if_true]
    have hstar := reads_wild (x := caseCtx) '*' (Or.inl rfl)
    obtain ⟨alts, h1, h2⟩ := readGlob_single (readable_append hat.1 ⟨_, hstar⟩) (by simp)
    refine ⟨alts, h1, ?_⟩
    intro w
    rw [h2 w, matches_append hat.1 ⟨_, hstar⟩]
    simp only [hatm, matches_of_reads hstar, seqLang_single]
    constructor
    · rintro ⟨a, b, rfl, ⟨e, he, ha⟩, _⟩; exact ⟨e, he, a, b, rfl, ha, by simp⟩
    · rintro ⟨e, he, a, b, rfl, ha, _⟩; exact ⟨a, b, rfl, ⟨e, he, ha⟩, trivial⟩

/-- The extension `*` makes the Bash pattern match every extension. -/
theorem C12_bash_special_character :
    ∃ alts, readGlob caseCtx (bashExtensionPattern [S "*"] false) = some alts ∧ Glob.AltLang alts (S "txt") := by
  refine ⟨[[.ext '@' [[.star]]]], rfl, ?_⟩
  simp only [Glob.AltLang, Glob.SeqLang, Glob.Lang, if_true, or_false]
  exact ⟨S "txt", [], by simp, ⟨S "txt", [], by simp, trivial, rfl⟩, rfl⟩

/-- One character in Fish. -/
theorem fish_ext_char {c : Char} (h : c = '.' ∨ c = '+' ∨ RxPlain c) :
    ∃ gs, RReads (fishExtChar c) gs ∧ ∀ w, Rx.SeqLang gs w ↔ ∃ d, w = [d] ∧ asciiLower d = asciiLower c := by
  unfold fishExtChar
  by_cases ha : c.isAlpha = true
  · rw [if_pos ha]
    refine ⟨_, rreads_two _ _ (alpha_rx (alpha_lower ha)) (alpha_rx (alpha_upper ha)), ?_⟩
    intro w
    rw [rxSeq_single]
    simp only [Rx.Lang, Bool.false_eq_true, if_false, inRanges_two, sameLetter ha]
  · simp only [Bool.not_eq_true] at ha
    simp only [ha, Bool.false_eq_true, if_false]
    have hl : ∀ w, Rx.SeqLang [.chr c] w ↔ ∃ d, w = [d] ∧ asciiLower d = asciiLower c := by
      intro w
      rw [rxSeq_single]
      simp only [Rx.Lang, sameOther ha, exists_eq_right]
    by_cases hp : c = '.' ∨ c = '+'
    · rw [if_pos hp]
      exact ⟨_, rreads_escaped (by rcases hp with rfl | rfl <;> decide), hl⟩
    · rw [if_neg hp]
      simp only [not_or] at hp
      rcases h with h | h | h
      · exact absurd h hp.1
      · exact absurd h hp.2
      · exact ⟨_, rreads_plain h, hl⟩

theorem fish_extension {e : Str} (h : ∀ c ∈ e, c = '.' ∨ c = '+' ∨ RxPlain c) :
    ∃ gs, RReads (e.flatMap fishExtChar) gs ∧ ∀ w, Rx.SeqLang gs w ↔ lower w = lower e := by
  induction e with
  | nil =>
    refine ⟨[], rreads_nil, ?_⟩
    intro w
    simp [Rx.SeqLang, lower]
  | cons c e ih =>
    obtain ⟨g1, r1, l1⟩ := fish_ext_char (h c (by simp))
    obtain ⟨g2, r2, l2⟩ := ih (fun x hx => h x (by simp [hx]))
    refine ⟨g1 ++ g2, by simpa using rreads_append r1 r2, ?_⟩
    intro w
    rw [rxSeq_append]
    simp only [l1, l2]
    constructor
    · rintro ⟨a, b, rfl, ⟨d, rfl, hd⟩, hb⟩
      simp [lower, hd] at hb ⊢
      exact hb
    · intro hw
      cases w with
      | nil => simp [lower] at hw
      | cons d w =>
        simp only [lower, List.map_cons, List.cons.injEq] at hw
        exact ⟨[d], w, rfl, ⟨d, rfl, hw.1⟩, hw.2⟩

theorem fish_one (e : Str) (fuzzy : Bool) (h : ∀ c ∈ e, c = '.' ∨ c = '+' ∨ RxPlain c) :
    ∃ gs, RReads (['('] ++ (S ".*\\." ++ e.flatMap fishExtChar ++ (if fuzzy then S ".*" else [])) ++ [')']) gs ∧
      ∀ w, '\n' ∉ w → (Rx.SeqLang gs w ↔
        ∃ p a b, w = p ++ '.' :: (a ++ b) ∧ lower a = lower e ∧ (fuzzy = false → b = [])) := by
  obtain ⟨ge, re, le⟩ := fish_extension h
  have r0 : RReads (S ".*\\.") [.rep '*' .dot, .chr '.'] := rreads_append rreads_any (rreads_escaped (by decide))
  have l0 : ∀ w, Rx.SeqLang [.rep '*' .dot, .chr '.'] w ↔ ∃ p, w = p ++ ['.'] ∧ '\n' ∉ p := by
    intro w
    simp only [Rx.SeqLang, Rx.Lang, if_true]
    constructor
    · rintro ⟨p, b, rfl, hp, a, b', rfl, rfl, rfl⟩
      exact ⟨p, by simp, (repeat_dot p).1 hp⟩
    · rintro ⟨p, rfl, hp⟩
      exact ⟨p, ['.'], rfl, (repeat_dot p).2 hp, ['.'], [], rfl, rfl, rfl⟩
  cases fuzzy with
  | false =>
    refine ⟨_, rreads_group [_] [_] (.cons (rreads_append (rreads_append r0 re) rreads_nil) .nil) (by simp), ?_⟩
    intro w hw
    rw [rxSeq_single]
    simp only [Rx.Lang, Rx.AltLang, or_false, List.append_nil]
    rw [rxSeq_append]
    simp only [l0, le]
    constructor
    · rintro ⟨x, a, rfl, ⟨p, rfl, hp⟩, ha⟩
      exact ⟨p, a, [], by simp, ha, fun _ => rfl⟩
    · rintro ⟨p, a, b, rfl, ha, hb⟩
      rw [hb trivial]
      simp only [List.mem_append, not_or] at hw
      exact ⟨p ++ ['.'], a, by simp, ⟨p, rfl, hw.1⟩, ha⟩
  | true =>
    refine ⟨_, rreads_group [_] [_] (.cons (rreads_append (rreads_append r0 re) rreads_any) .nil) (by simp), ?_⟩
    intro w hw
    rw [rxSeq_single]
    simp only [Rx.Lang, Rx.AltLang, or_false]
    rw [rxSeq_append]
    have ld : ∀ w, Rx.SeqLang [.rep '*' .dot] w ↔ '\n' ∉ w := by
      intro w
      rw [rxSeq_single]
      simp only [Rx.Lang, if_true]
      exact repeat_dot w
    simp only [rxSeq_append, l0, le, ld]
    constructor
    · rintro ⟨x, b, rfl, ⟨y, a, rfl, ⟨p, rfl, hp⟩, ha⟩, hb⟩
      exact ⟨p, a, b, by simp, ha, by simp⟩
    · rintro ⟨p, a, b, rfl, ha, hb⟩
      simp only [List.mem_append, List.mem_cons, not_or] at hw
      exact ⟨p ++ '.' :: a, b, by simp, ⟨p ++ ['.'], a, by simp, ⟨p, rfl, hw.1⟩, ha⟩, hw.2.2.2⟩

/-- **C12, Fish** (partial): for every non-empty list of extensions made of `.`, `+` and characters
without a meaning of their own in a regular expression, Fish reads the expression as one that matches
a name without newlines exactly if the name ends in a dot and one of the extensions up to the case of
letters; with `fuzzy`, more may follow. What is missing: other special characters are not escaped
(`C12_fish_special_character`). -/
theorem C12_fish_partial (exts : List Str) (fuzzy : Bool) (hne : exts ≠ [])
    (h : ∀ e ∈ exts, ∀ c ∈ e, c = '.' ∨ c = '+' ∨ RxPlain c) :
    ∃ alts, readRegex (fishExtensionRegex exts fuzzy) = some alts ∧
      ∀ w, '\n' ∉ w → (Rx.AltLang alts w ↔
        ∃ e ∈ exts, ∃ p a b, w = p ++ '.' :: (a ++ b) ∧ lower a = lower e ∧ (fuzzy = false → b = [])) := by
  have key : ∃ gss, All2 RReads (exts.map (fun e =>
      ['('] ++ (S ".*\\." ++ e.flatMap fishExtChar ++ (if fuzzy then S ".*" else [])) ++ [')'])) gss ∧
      ∀ w, '\n' ∉ w → (Rx.AltLang gss w ↔
        ∃ e ∈ exts, ∃ p a b, w = p ++ '.' :: (a ++ b) ∧ lower a = lower e ∧ (fuzzy = false → b = [])) := by
    clear hne
    induction exts with
    | nil => exact ⟨[], .nil, by simp [Rx.AltLang]⟩
    | cons e es ih =>
      obtain ⟨gss, hg, hl⟩ := ih (fun x hx => h x (by simp [hx]))
      obtain ⟨g, hr, hl1⟩ := fish_one e fuzzy (h e (by simp))
      refine ⟨g :: gss, .cons hr hg, ?_⟩
      intro w hw
      simp only [Rx.AltLang, hl1 w hw, hl w hw, List.mem_cons, exists_eq_or_imp]
  obtain ⟨gss, hg, hl⟩ := key
  exact ⟨gss, readRegex_bars _ _ hg (by simpa using hne), hl⟩

/-- The extension `c|` is not escaped: the expression also accepts the empty text, which has no extension. -/
theorem C12_fish_special_character :
    ∃ alts, readRegex (fishExtensionRegex [S "c|"] false) = some alts ∧ Rx.AltLang alts [] := by
  refine ⟨[[.grp [[.rep '*' .dot, .chr '.', .cls false [('c', 'c'), ('C', 'C')]], []]]], rfl, ?_⟩
  simp [Rx.AltLang, Rx.SeqLang, Rx.Lang]

/-- `tar.gz` and `C++` are covered. -/
theorem C12_example : bashExtensionPattern [S "tar.gz", S "C++"] true = S "@([tT][aA][rR].[gG][zZ]|[cC]++)*" ∧
    (∀ e ∈ [S "tar.gz", S "C++"], ∀ c ∈ e, PlainChar c) ∧
    (∀ e ∈ [S "tar.gz", S "C++"], ∀ c ∈ e, c = '.' ∨ c = '+' ∨ RxPlain c) ∧
    fishExtensionRegex [S "tar.gz", S "C++"] false = S "(.*\\.[tT][aA][rR]\\.[gG][zZ])|(.*\\.[cC]\\+\\+)" := by
  refine ⟨by decide +kernel, ?_, ?_, by decide +kernel⟩
  · unfold PlainChar; decide
  · unfold RxPlain; decide

end CC
