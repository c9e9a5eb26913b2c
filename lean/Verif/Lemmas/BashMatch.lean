import Verif.Props.BashPatterns
import Verif.Props.Preprocessor
import Verif.Model.BashFile
/-!
# Lemmas: what the patterns of the Bash parser match
-/

namespace BashText
open CC

/-- Bash reads the text as a pattern that matches these words. -/
def Means (p : Str) (L : Str → Prop) : Prop := ∃ alts, readGlob caseCtx p = some alts ∧ ∀ w, Glob.AltLang alts w ↔ L w

theorem Means.some {p : Str} {L : Str → Prop} (h : Means p L) : (readGlob caseCtx p).isSome = true := by
  obtain ⟨a, h, _⟩ := h; rw [h]; rfl

theorem Means.congr {p : Str} {L M : Str → Prop} (h : Means p L) (e : ∀ w, L w ↔ M w) : Means p M := by
  obtain ⟨a, h, g⟩ := h; exact ⟨a, h, fun w => (g w).trans (e w)⟩

theorem means_of_readable {t : Str} (h : Readable caseCtx t) (hne : t ≠ []) : Means t (Matches caseCtx t) := readGlob_single h hne

theorem readable_wild {k : Char} (hk : k = '*' ∨ k = '?') : Readable caseCtx [k] := ⟨_, reads_wild k hk⟩

theorem matches_star (w : Str) : Matches caseCtx ['*'] w := by
  rw [matches_of_reads (reads_wild '*' (Or.inl rfl)), seqLang_single]
  show Glob.Lang .star w
  simp [Glob.Lang]

theorem matches_any (w : Str) : Matches caseCtx ['?'] w ↔ ∃ c, w = [c] := by
  rw [matches_of_reads (reads_wild '?' (Or.inr rfl)), seqLang_single]
  show Glob.Lang .any w ↔ _
  simp [Glob.Lang]

theorem means_star : Means ['*'] (fun _ => True) :=
  (means_of_readable (readable_wild (Or.inl rfl)) (by simp)).congr (fun w => by simp [matches_star])

theorem means_option : Means (S "-?*") (fun w => isOptionWord w = true) := by
  have hd : LitChar caseCtx '-' := by unfold LitChar; decide
  have h1 : Readable caseCtx (['?'] ++ ['*']) := readable_append (readable_wild (Or.inr rfl)) (readable_wild (Or.inl rfl))
  refine (means_of_readable (t := '-' :: (['?'] ++ ['*'])) (readable_lit_cons hd h1) (by simp)).congr ?_
  intro w
  rw [matches_lit_cons hd h1]
  constructor
  · rintro ⟨u, rfl, hu⟩
    obtain ⟨a, b, rfl, ha, _⟩ := (matches_append (readable_wild (Or.inr rfl)) (readable_wild (Or.inl rfl)) u).1 hu
    obtain ⟨c, rfl⟩ := (matches_any a).1 ha
    rfl
  · intro h
    have h' : ∃ c t, w = '-' :: c :: t := by
      unfold isOptionWord at h
      split at h
      · exact ⟨_, _, rfl⟩
      · cases h
    obtain ⟨c, t, rfl⟩ := h'
    · exact ⟨c :: t, rfl, (matches_append (readable_wild (Or.inr rfl)) (readable_wild (Or.inl rfl)) _).2
      ⟨[c], t, rfl, (matches_any _).2 ⟨c, rfl⟩, matches_star t⟩⟩

theorem means_lits {t : Str} (hne : t ≠ []) (h : ∀ c ∈ t, LitChar caseCtx c) : Means t (fun w => w = t) :=
  (means_of_readable (readable_lits h) hne).congr (fun w => matches_lits h w)

theorem means_dashes : Means (S "--") (fun w => w = ['-', '-']) := means_lits (by decide) (by unfold LitChar; decide)

theorem join_ne {sep : Str} {l : List Str} (hne : l ≠ []) (h : ∀ t ∈ l, t ≠ []) : joinWith sep l ≠ [] := by
  cases l with
  | nil => exact absurd rfl hne
  | cons t r =>
    cases r with
    | nil => exact h t (by simp)
    | cons u r =>
      have := h t (by simp)
      simp [joinWith, this]

/-- `a|b|c`. -/
theorem means_any {l : List Str} (hne : l ≠ []) (h : ∀ t ∈ l, t ≠ [] ∧ ∀ c ∈ t, LitChar caseCtx c) : Means (joinWith ['|'] l) (fun w => w ∈ l) := by
  obtain ⟨a, h1, h2⟩ := readGlob_bars (x := caseCtx) hne (fun t ht => readable_lits (h t ht).2) (join_ne hne (fun t ht => (h t ht).1))
  refine ⟨a, h1, fun w => (h2 w).trans ?_⟩
  constructor
  · rintro ⟨t, ht, hm⟩
    rw [matches_lits (h t ht).2] at hm
    exact hm ▸ ht
  · intro hw
    exact ⟨w, hw, (matches_lits (h w hw).2 w).2 rfl⟩

theorem readable_prefix {t : Str} (h : ∀ c ∈ t, LitChar caseCtx c) : Readable caseCtx (t ++ ['*']) :=
  readable_append (readable_lits h) (readable_wild (Or.inl rfl))

theorem matches_prefix {t : Str} (h : ∀ c ∈ t, LitChar caseCtx c) (w : Str) : Matches caseCtx (t ++ ['*']) w ↔ startsWith w t = true := by
  rw [matches_append (readable_lits h) (readable_wild (Or.inl rfl)), startsWith_iff]
  constructor
  · rintro ⟨a, b, rfl, ha, _⟩
    rw [matches_lits h] at ha
    exact ⟨b, by rw [ha]⟩
  · rintro ⟨r, rfl⟩
    exact ⟨t, r, rfl, (matches_lits h t).2 rfl, matches_star r⟩

/-- `t*`. -/
theorem means_prefix {t : Str} (h : ∀ c ∈ t, LitChar caseCtx c) : Means (t ++ ['*']) (fun w => startsWith w t = true) :=
  (means_of_readable (readable_prefix h) (by simp)).congr (matches_prefix h)

theorem lit_equals : LitChar caseCtx '=' := by unfold LitChar; decide

/-- `a=*|b=*`. -/
theorem means_with {l : List Str} (hne : l ≠ []) (h : ∀ t ∈ l, ∀ c ∈ t, LitChar caseCtx c) :
    Means (joinWith ['|'] (l.map (fun t => t ++ ['=', '*']))) (fun w => l.any (fun t => startsWith w (t ++ ['='])) = true) := by
  have hl : ∀ t ∈ l, ∀ c ∈ t ++ ['='], LitChar caseCtx c := by
    intro t ht c hc
    rcases List.mem_append.mp hc with hc | hc
    · exact h t ht c hc
    · rw [List.mem_singleton.mp hc]; exact lit_equals
  have hr : ∀ u ∈ l.map (fun t => t ++ ['=', '*']), Readable caseCtx u := by
    intro u hu
    obtain ⟨t, ht, rfl⟩ := List.mem_map.mp hu
    have := readable_prefix (hl t ht)
    simpa using this
  obtain ⟨a, h1, h2⟩ := readGlob_bars (x := caseCtx) (by simpa using hne) hr (join_ne (by simpa using hne) (by
    intro u hu
    obtain ⟨t, ht, rfl⟩ := List.mem_map.mp hu
    simp))
  refine ⟨a, h1, fun w => (h2 w).trans ?_⟩
  show _ ↔ List.any l _ = true
  rw [List.any_eq_true]
  constructor
  · rintro ⟨u, hu, hm⟩
    obtain ⟨t, ht, rfl⟩ := List.mem_map.mp hu
    refine ⟨t, ht, (matches_prefix (hl t ht) w).1 ?_⟩
    simpa using hm
  · rintro ⟨t, ht, hm⟩
    refine ⟨t ++ ['=', '*'], List.mem_map.mpr ⟨t, ht, rfl⟩, ?_⟩
    have := (matches_prefix (hl t ht) w).2 hm
    simpa using this

/-! ## Quoted labels -/

theorem gread_sq (t : Str) (h : '\'' ∉ t) : ∀ (a : List (List Glob)) (cu : List Glob),
    gread caseCtx ⟨[], a, cu, .sq⟩ t = some ⟨[], a, cu ++ t.map Glob.lit, .sq⟩ := by
  induction t with
  | nil => intro a cu; simp [gread]
  | cons c t ih =>
    intro a cu
    simp only [List.mem_cons, not_or] at h
    rw [gread_cons]
    have : gstep caseCtx ⟨[], a, cu, .sq⟩ c = some ⟨[], a, cu ++ [.lit c], .sq⟩ := by
      simp only [gstep]; rw [if_neg (Ne.symm h.1)]
    rw [this]
    show gread caseCtx _ t = _
    rw [ih h.2]; simp

theorem seqLang_lits (t w : Str) : Glob.SeqLang (t.map Glob.lit) w ↔ w = t := by
  induction t generalizing w with
  | nil => simp [Glob.SeqLang]
  | cons c t ih =>
    simp only [List.map_cons, Glob.SeqLang]
    constructor
    · rintro ⟨a, b, rfl, ha, hb⟩
      rw [ih] at hb
      rw [Glob.Lang] at ha
      rw [ha, hb]; rfl
    · rintro rfl
      exact ⟨[c], t, rfl, by rw [Glob.Lang], (ih t).2 rfl⟩

theorem means_quoted {t : Str} (h : '\'' ∉ t) : Means ('\'' :: t ++ ['\'']) (fun w => w = t) := by
  have hg : gread caseCtx {} ('\'' :: t ++ ['\'']) = some ⟨[], [], t.map Glob.lit, .plain⟩ := by
    rw [gread_append, gread_cons]
    have : gstep caseCtx {} '\'' = some ⟨[], [], [], .sq⟩ := by rfl
    rw [this]
    show (gread caseCtx ⟨[], [], [], .sq⟩ t).bind _ = _
    rw [gread_sq t h]; rfl
  refine ⟨[t.map Glob.lit], ?_, ?_⟩
  · unfold readGlob
    rw [if_neg (by simp), hg]; rfl
  · intro w
    simp only [Glob.AltLang, or_false, seqLang_lits]

end BashText
