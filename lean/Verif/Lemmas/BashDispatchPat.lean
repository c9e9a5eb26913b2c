import Verif.Model.BashDispatchText
import Verif.Spec.BashLetters
import Verif.Lemmas.BashPlainText
/-!
# Lemmas: what the patterns of the dispatcher match
-/

namespace CC
namespace DispatchLex
open BashText (Means means_of_readable readable_wild matches_star means_prefix means_any)

/-- The text of a pattern. -/
def patText : DPat → Str
  | .long => S "--*"
  | .dash => S "-*"
  | .longEq => S "--*=*"
  | .dashEq => S "-*=*"
  | .olds ss => oldPattern ss
  | .shortEnd flags args => S "-" ++ flagsPattern flags ++ S "[" ++ args ++ S "]"
  | .shortAny flags args => S "-" ++ flagsPattern flags ++ S "[" ++ args ++ S "]*"

theorem letter_cls {c : Char} (h : PlainLetter c) : ClsChar caseCtx c ∧ c ≠ '-' ∧ c ≠ '!' ∧ c ≠ '^' := by
  unfold PlainLetter at h
  simp only [S, String.reduceToList, List.mem_cons, List.not_mem_nil, or_false, not_or] at h
  unfold ClsChar
  refine ⟨⟨?_, ?_⟩, ?_⟩
  · simp [S, h]
  · simp [caseCtx, S, h]
  · simp [h]

theorem ranges_plain : ∀ (cs : Str), '-' ∉ cs → clsRanges (cs.map (fun c => (c, false))) = cs.map (fun c => (c, c))
  | [], _ => rfl
  | [a], _ => rfl
  | [a, b], _ => rfl
  | a :: m :: b :: r, h => by
    have hm : m ≠ '-' := fun e => h (by simp [e])
    have ih := ranges_plain (m :: b :: r) (fun e => h (by simp at e ⊢; right; exact e))
    rw [List.map_cons, List.map_cons, List.map_cons, clsRanges, if_neg (by simp [hm])]
    rw [List.map_cons, List.map_cons] at ih
    rw [ih]
    simp

theorem in_ranges {cs : Str} (c : Char) : inRanges (cs.map (fun c => (c, c))) c ↔ c ∈ cs := by
  unfold inRanges
  constructor
  · rintro ⟨r, hr, h1, h2⟩
    obtain ⟨d, hd, rfl⟩ := List.mem_map.mp hr
    simp only at h1 h2
    have : d = c := char_eq_of_toNat (by omega)
    rw [← this]; exact hd
  · intro h
    exact ⟨(c, c), List.mem_map.mpr ⟨c, h, rfl⟩, Nat.le_refl _, Nat.le_refl _⟩

theorem set_reads {cs : Str} (hne : cs ≠ []) (h : ∀ c ∈ cs, PlainLetter c) : GReads caseCtx (S "[" ++ cs ++ S "]") [.cls false (cs.map (fun c => (c, c)))] := by
  have := reads_cls (x := caseCtx) false cs hne (fun c hc => (letter_cls (h c hc)).1) (fun _ => by
    cases cs with
    | nil => exact absurd rfl hne
    | cons c r =>
      have := letter_cls (h c (by simp))
      simp [this]) '!' (.inl rfl)
  rw [ranges_plain cs (fun hm => (letter_cls (h _ hm)).2.1 rfl)] at this
  simpa [S] using this

theorem set_matches {cs : Str} (hne : cs ≠ []) (h : ∀ c ∈ cs, PlainLetter c) (w : Str) : Matches caseCtx (S "[" ++ cs ++ S "]") w ↔ ∃ c ∈ cs, w = [c] := by
  rw [matches_of_reads (set_reads hne h), seqLang_single]
  simp only [Glob.Lang, Bool.false_eq_true, if_false, in_ranges]
  constructor
  · rintro ⟨c, rfl, h⟩; exact ⟨c, h, rfl⟩
  · rintro ⟨c, h, rfl⟩; exact ⟨c, rfl, h⟩

theorem flags_reads {cs : Str} (hne : cs ≠ []) (h : ∀ c ∈ cs, PlainLetter c) : GReads caseCtx (S "*([" ++ cs ++ S "])") [.ext '*' [[.cls false (cs.map (fun c => (c, c)))]]] := by
  have := reads_ext (x := caseCtx) rfl '*' (by simp) [S "[" ++ cs ++ S "]"] [[.cls false (cs.map (fun c => (c, c)))]] (.cons (set_reads hne h) .nil) (by simp)
  simpa [joinWith, S] using this

theorem repeat_letters (L : Str → Prop) (cs : Str) (hL : ∀ w, L w ↔ ∃ c ∈ cs, w = [c]) (w : Str) : Repeat L w ↔ ∀ c ∈ w, c ∈ cs := by
  constructor
  · intro h
    induction h with
    | nil => simp
    | cons ha _ ih =>
      obtain ⟨c, hc, rfl⟩ := (hL _).mp ha
      simpa [hc] using ih
  · intro h
    induction w with
    | nil => exact .nil
    | cons c r ih => exact .cons (a := [c]) ((hL _).mpr ⟨c, h c (by simp), rfl⟩) (ih (fun d hd => h d (by simp [hd])))

theorem flags_readable {cs : Str} (h : ∀ c ∈ cs, PlainLetter c) : Readable caseCtx (flagsPattern cs) := by
  unfold flagsPattern
  by_cases hne : cs = []
  · rw [if_pos (by simp [hne])]; exact ⟨[], reads_nil⟩
  · rw [if_neg (by simpa using hne)]; exact ⟨_, flags_reads hne h⟩

theorem flags_matches {cs : Str} (h : ∀ c ∈ cs, PlainLetter c) (w : Str) : Matches caseCtx (flagsPattern cs) w ↔ ∀ c ∈ w, c ∈ cs := by
  unfold flagsPattern
  by_cases hne : cs = []
  · rw [if_pos (by simp [hne]), matches_nil, hne]
    constructor
    · rintro rfl; simp
    · intro h
      cases w with
      | nil => rfl
      | cons a r => exact absurd (h a (by simp)) (by simp)
  · rw [if_neg (by simpa using hne), matches_of_reads (flags_reads hne h), seqLang_single]
    simp only [Glob.Lang]
    rw [if_neg (by decide), if_neg (by decide), if_pos trivial]
    refine repeat_letters _ cs (fun w => ?_) w
    rw [altLang_iff]
    simp only [List.mem_singleton, exists_eq_left, seqLang_single, Glob.Lang, Bool.false_eq_true, if_false, in_ranges]
    constructor
    · rintro ⟨c, rfl, h⟩; exact ⟨c, h, rfl⟩
    · rintro ⟨c, h, rfl⟩; exact ⟨c, rfl, h⟩

theorem lit_dash : LitChar caseCtx '-' := by unfold LitChar; decide

theorem ends_iff (flags args w : Str) : clusterEnds flags args w = true ↔ ∃ a c, w = a ++ [c] ∧ (∀ x ∈ a, x ∈ flags) ∧ c ∈ args := by
  unfold clusterEnds
  rcases List.eq_nil_or_concat w with rfl | ⟨a, c, rfl⟩
  · simp
  · rw [List.concat_eq_append, List.getLast?_concat, List.dropLast_concat]
    simp only [Bool.and_eq_true, List.all_eq_true, List.contains_iff_mem]
    constructor
    · rintro ⟨h1, h2⟩; exact ⟨a, c, rfl, h2, h1⟩
    · rintro ⟨a', c', e, h2, h1⟩
      obtain ⟨e1, e2⟩ := List.append_inj' e rfl
      obtain ⟨e3, -⟩ := List.cons.inj e2
      rw [e1, e3]
      exact ⟨h1, h2⟩

theorem has_iff (flags args : Str) : ∀ w : Str, clusterHas flags args w = true ↔ ∃ a c b, w = a ++ c :: b ∧ (∀ x ∈ a, x ∈ flags) ∧ c ∈ args
  | [] => by simp [clusterHas]
  | d :: w => by
    have ih := has_iff flags args w
    simp only [clusterHas, Bool.or_eq_true, Bool.and_eq_true, List.contains_iff_mem, ih]
    constructor
    · rintro (h | ⟨h, a, c, b, rfl, h1, h2⟩)
      · exact ⟨[], d, w, rfl, by simp, h⟩
      · exact ⟨d :: a, c, b, rfl, by simpa [h] using h1, h2⟩
    · rintro ⟨a, c, b, e, h1, h2⟩
      cases a with
      | nil => cases e; exact .inl h2
      | cons x a =>
        cases e
        exact .inr ⟨h1 d (by simp), a, c, b, rfl, fun y hy => h1 y (by simp [hy]), h2⟩

theorem dash_iff (w : Str) (P : Str → Prop) : (startsWith w ['-'] = true ∧ P w.tail) ↔ ∃ t, w = '-' :: t ∧ P t := by
  rw [startsWith_iff]
  constructor
  · rintro ⟨⟨t, rfl⟩, h⟩; exact ⟨t, rfl, h⟩
  · rintro ⟨t, rfl, h⟩; exact ⟨⟨t, rfl⟩, h⟩

/-- Strings of old-style options, made of characters that stand for themselves. -/
def OldString (s : Str) : Prop := ∃ c t, s = '-' :: c :: t ∧ c ≠ '-' ∧ ∀ x ∈ c :: t, PlainChar x

/-- What has to be known about a pattern. -/
def GoodPat : DPat → Prop
  | .olds ss => ss ≠ [] ∧ ∀ s ∈ ss, OldString s
  | .shortEnd flags args => args ≠ [] ∧ ∀ c ∈ flags ++ args, PlainLetter c
  | .shortAny flags args => args ≠ [] ∧ ∀ c ∈ flags ++ args, PlainLetter c
  | _ => True

theorem eq_matches {t : Str} (ht : ∀ c ∈ t, LitChar caseCtx c) : Means (t ++ S "*=*") (fun w => startsWith w t = true ∧ '=' ∈ w.drop t.length) := by
  have hs := readable_wild (.inl rfl : '*' = '*' ∨ '*' = '?')
  have he : LitChar caseCtx '=' := BashText.lit_equals
  have h1 : Readable caseCtx ('=' :: ['*']) := readable_lit_cons he hs
  have h2 : Readable caseCtx (['*'] ++ '=' :: ['*']) := readable_append hs h1
  refine (means_of_readable (t := t ++ (['*'] ++ '=' :: ['*'])) (readable_append (readable_lits ht) h2) (by simp)).congr ?_
  intro w
  rw [matches_append (readable_lits ht) h2, startsWith_iff]
  constructor
  · rintro ⟨a, b, rfl, ha, hb⟩
    rw [matches_lits ht] at ha
    subst ha
    obtain ⟨x, y, rfl, -, hy⟩ := (matches_append hs h1 _).mp hb
    obtain ⟨z, rfl, -⟩ := (matches_lit_cons he hs _).mp hy
    exact ⟨⟨_, rfl⟩, by simp⟩
  · rintro ⟨⟨r, rfl⟩, h⟩
    rw [List.drop_left] at h
    obtain ⟨x, z, rfl⟩ := List.append_of_mem h
    exact ⟨t, _, rfl, (matches_lits ht _).mpr rfl, (matches_append hs h1 _).mpr ⟨x, _, rfl, matches_star x, (matches_lit_cons he hs _).mpr ⟨z, rfl, matches_star z⟩⟩⟩

/-- The patterns match what they are for. -/
theorem pat_means {p : DPat} (h : GoodPat p) : Means (patText p) (fun w => p.matches w = true) := by
  cases p with
  | long => exact means_prefix (t := ['-', '-']) (by unfold LitChar; decide)
  | dash => exact means_prefix (t := ['-']) (by unfold LitChar; decide)
  | longEq => exact (eq_matches (t := ['-', '-']) (by unfold LitChar; decide)).congr (fun w => by simp [DPat.matches])
  | dashEq => exact (eq_matches (t := ['-']) (by unfold LitChar; decide)).congr (fun w => by simp [DPat.matches])
  | olds ss =>
    obtain ⟨hne, hs⟩ := h
    have hlit : ∀ t ∈ ss, t ≠ [] ∧ ∀ c ∈ t, LitChar caseCtx c := by
      intro t ht
      obtain ⟨c, r, rfl, -, hc⟩ := hs t ht
      refine ⟨by simp, ?_⟩
      intro x hx
      rcases List.mem_cons.mp hx with rfl | hx
      · exact lit_dash
      · exact (hc x hx).lit
    show Means (oldPattern ss) (fun w => ss.contains w = true)
    unfold oldPattern
    split
    · exact (means_any hne hlit).congr (fun w => by simp)
    · have hd : ∀ s ∈ ss, s = '-' :: s.dropWhile (· == '-') := by
        intro s hm
        obtain ⟨c, r, rfl, hc, -⟩ := hs s hm
        rw [List.dropWhile_cons_of_pos (by rfl), List.dropWhile_cons_of_neg (by simpa using hc)]
      have hr : ∀ t ∈ ss.map (fun s => s.dropWhile (· == '-')), Readable caseCtx t := by
        intro t ht
        obtain ⟨s, hm, rfl⟩ := List.mem_map.mp ht
        refine readable_lits (fun c hc => (hlit s hm).2 c ?_)
        rw [hd s hm]
        simp [hc]
      obtain ⟨m1, m2⟩ := matches_at (x := caseCtx) rfl (ts := ss.map (fun s => s.dropWhile (· == '-'))) (by simpa using hne) hr
      have e : S "-@(" ++ joinWith ['|'] (ss.map (fun s => s.dropWhile (· == '-'))) ++ S ")" = '-' :: (['@', '('] ++ joinWith ['|'] (ss.map (fun s => s.dropWhile (· == '-'))) ++ [')']) := by simp [S]
      rw [e]
      refine (means_of_readable (readable_lit_cons lit_dash m1) (by simp)).congr ?_
      intro w
      rw [matches_lit_cons lit_dash m1, List.contains_iff_mem]
      constructor
      · rintro ⟨u, rfl, hu⟩
        rw [m2] at hu
        obtain ⟨t, ht, hm⟩ := hu
        obtain ⟨s, hs', rfl⟩ := List.mem_map.mp ht
        rw [matches_lits (fun c hc => (hlit s hs').2 c (by rw [hd s hs']; simp [hc]))] at hm
        rw [hm, ← hd s hs']
        exact hs'
      · intro hw
        refine ⟨_, hd w hw, (m2 _).mpr ⟨_, List.mem_map.mpr ⟨w, hw, rfl⟩, ?_⟩⟩
        rw [matches_lits (fun c hc => (hlit w hw).2 c (by rw [hd w hw]; simp [hc]))]
  | shortEnd flags args =>
    obtain ⟨hne, hl⟩ := h
    have hf := flags_readable (cs := flags) (fun c hc => hl c (by simp [hc]))
    have ha : Readable caseCtx (S "[" ++ args ++ S "]") := ⟨_, set_reads hne (fun c hc => hl c (by simp [hc]))⟩
    have h2 := readable_append hf ha
    have e : patText (.shortEnd flags args) = '-' :: (flagsPattern flags ++ (S "[" ++ args ++ S "]")) := by simp [patText, S]
    rw [e]
    refine (means_of_readable (readable_lit_cons lit_dash h2) (by simp)).congr ?_
    intro w
    rw [matches_lit_cons lit_dash h2]
    simp only [DPat.matches, Bool.and_eq_true]
    rw [dash_iff w (fun t => clusterEnds flags args t = true)]
    constructor
    · rintro ⟨u, rfl, hu⟩
      obtain ⟨a, b, rfl, h3, h4⟩ := (matches_append hf ha _).mp hu
      obtain ⟨c, hc, rfl⟩ := (set_matches hne (fun c hc => hl c (by simp [hc])) _).mp h4
      exact ⟨_, rfl, (ends_iff _ _ _).mpr ⟨a, c, rfl, (flags_matches (fun c hc => hl c (by simp [hc])) _).mp h3, hc⟩⟩
    · rintro ⟨t, rfl, ht⟩
      obtain ⟨a, c, rfl, h3, h4⟩ := (ends_iff _ _ _).mp ht
      exact ⟨_, rfl, (matches_append hf ha _).mpr ⟨a, [c], rfl, (flags_matches (fun c hc => hl c (by simp [hc])) _).mpr h3, (set_matches hne (fun c hc => hl c (by simp [hc])) _).mpr ⟨c, h4, rfl⟩⟩⟩
  | shortAny flags args =>
    obtain ⟨hne, hl⟩ := h
    have hs := readable_wild (.inl rfl : '*' = '*' ∨ '*' = '?')
    have hf := flags_readable (cs := flags) (fun c hc => hl c (by simp [hc]))
    have ha : Readable caseCtx (S "[" ++ args ++ S "]") := ⟨_, set_reads hne (fun c hc => hl c (by simp [hc]))⟩
    have h1 := readable_append ha hs
    have h2 := readable_append hf h1
    have e : patText (.shortAny flags args) = '-' :: (flagsPattern flags ++ ((S "[" ++ args ++ S "]") ++ ['*'])) := by simp [patText, S]
    rw [e]
    refine (means_of_readable (readable_lit_cons lit_dash h2) (by simp)).congr ?_
    intro w
    rw [matches_lit_cons lit_dash h2]
    simp only [DPat.matches, Bool.and_eq_true]
    rw [dash_iff w (fun t => clusterHas flags args t = true)]
    constructor
    · rintro ⟨u, rfl, hu⟩
      obtain ⟨a, b, rfl, h3, h4⟩ := (matches_append hf h1 _).mp hu
      obtain ⟨x, y, rfl, h5, -⟩ := (matches_append ha hs _).mp h4
      obtain ⟨c, hc, rfl⟩ := (set_matches hne (fun c hc => hl c (by simp [hc])) _).mp h5
      exact ⟨_, rfl, (has_iff _ _ _).mpr ⟨a, c, y, rfl, (flags_matches (fun c hc => hl c (by simp [hc])) _).mp h3, hc⟩⟩
    · rintro ⟨t, rfl, ht⟩
      obtain ⟨a, c, b, rfl, h3, h4⟩ := (has_iff _ _ _).mp ht
      exact ⟨_, rfl, (matches_append hf h1 _).mpr ⟨a, c :: b, rfl, (flags_matches (fun c hc => hl c (by simp [hc])) _).mpr h3,
        (matches_append ha hs _).mpr ⟨[c], b, rfl, (set_matches hne (fun c hc => hl c (by simp [hc])) _).mpr ⟨c, h4, rfl⟩, matches_star b⟩⟩⟩

end DispatchLex
end CC
