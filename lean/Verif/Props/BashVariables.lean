import Verif.Props.BashOptions
import Verif.Props.Quoting
/-!
# C48: the variables that record options in Bash
-/

namespace CC

open Ident

/-- The string whose text gives the name of the variable: the first long string, else the first
old-style string, else the first short one. -/
def NamingString (o : Opt) (s : Str) : Prop :=
  (∃ l1 l2, o.strings = l1 ++ s :: l2 ∧ IsLong s ∧ ∀ x ∈ l1, ¬ IsLong x) ∨
  (∃ l1 l2, o.strings = l1 ++ s :: l2 ∧ IsOld s ∧ (∀ x ∈ o.strings, ¬ IsLong x) ∧ ∀ x ∈ l1, ¬ IsOld x) ∨
  (∃ l2, o.strings = s :: l2 ∧ ∀ x ∈ o.strings, IsShort x)

/-- Characters of variable names. -/
def WordChar (c : Char) : Prop := c.isAlphanum = true ∨ c = '_'

theorem filter_head {p : Str → Bool} {l : List Str} {s : Str} {r : List Str} (h : l.filter p = s :: r) :
    ∃ l1 l2, l = l1 ++ s :: l2 ∧ p s = true ∧ ∀ x ∈ l1, p x = false := by
  induction l with
  | nil => simp at h
  | cons a l ih =>
    by_cases ha : p a = true
    · rw [List.filter_cons_of_pos ha] at h
      cases h
      exact ⟨[], l, rfl, ha, by simp⟩
    · rw [List.filter_cons_of_neg ha] at h
      obtain ⟨l1, l2, h1, h2, h3⟩ := ih h
      refine ⟨a :: l1, l2, by rw [h1]; rfl, h2, ?_⟩
      intro x hx
      rcases List.mem_cons.mp hx with rfl | hx
      · simpa using ha
      · exact h3 x hx

theorem ident_prefix {s : Str} (h : ∀ c ∈ s, WordChar c) : IsShellIdentifier (S "OPT_" ++ s) := by
  refine ⟨'O', ['P', 'T', '_'] ++ s, rfl, .inl (by decide), ?_⟩
  intro d hd
  rcases List.mem_append.mp hd with hd | hd
  · simp only [List.mem_cons, List.not_mem_nil, or_false] at hd
    rcases hd with rfl | rfl | rfl <;> decide
  · exact h d hd

theorem identifier_chars {s : Str} (h : s = [] ∨ IsShellIdentifier s) : ∀ c ∈ s, WordChar c := by
  rcases h with rfl | ⟨c, cs, rfl, h1, h2⟩
  · simp
  · intro d hd
    rcases List.mem_cons.mp hd with rfl | hd
    · rcases h1 with h1 | h1
      · left; simp [Char.isAlphanum, h1]
      · exact .inr h1
    · exact h2 d hd

/-- The name of the variable of an option, by its naming string: the text after the dashes, as an
identifier; for a short string the letter. -/
theorem C48_name (o : Opt) (h : o.check = true) (hc : o.capture = none) :
    ∃ s, NamingString o s ∧
      captureVariable o = S "OPT_" ++ (if s.length = 2 then s.drop 1 else makeIdentifier (s.dropWhile (· == '-'))) := by
  obtain ⟨h1, h2, h3, hp, _⟩ := C15_getters o h
  have hv : ∀ s ∈ o.strings, isValidOptionString s = true := by
    have h' := h
    unfold Opt.check at h'
    simp only [Bool.and_eq_true, List.all_eq_true] at h'
    exact h'.1.1.1.1.2
  have hx : ∀ s ∈ o.strings, (IsShort s ∧ ¬ IsLong s ∧ ¬ IsOld s) ∨ (¬ IsShort s ∧ IsLong s ∧ ¬ IsOld s) ∨
      (¬ IsShort s ∧ ¬ IsLong s ∧ IsOld s) := fun s hs => C15_exactly_one s (hv s hs)
  have hne : o.strings ≠ [] := by
    have h' := h
    unfold Opt.check at h'
    simp only [Bool.and_eq_true] at h'
    have := h'.1.1.1.1.1
    intro q
    simp [q] at this
  unfold captureVariable optionVariableName
  rw [hc]
  simp only
  cases hl : o.longStrings with
  | cons l ls =>
    obtain ⟨l1, l2, e, p, q⟩ := filter_head hl
    have hlm : l ∈ o.longStrings := by rw [hl]; simp
    have hlong := ((h2 l).mp hlm).2
    refine ⟨l, .inl ⟨l1, l2, e, hlong, ?_⟩, ?_⟩
    · intro x hx' hxl
      have : x ∈ o.longStrings := (h2 x).mpr ⟨by rw [e]; simp [hx'], hxl⟩
      have := (List.mem_filter.mp this).2
      rw [q x hx'] at this
      exact absurd this (by decide)
    · obtain ⟨c, cs, rfl⟩ := hlong
      simp
  | nil =>
    have hnl : ∀ x ∈ o.strings, ¬ IsLong x := by
      intro x hx' hxl
      have := (h2 x).mpr ⟨hx', hxl⟩
      simp [hl] at this
    cases hold : o.oldStrings with
    | cons l ls =>
      obtain ⟨l1, l2, e, p, q⟩ := filter_head hold
      have hlm : l ∈ o.oldStrings := by rw [hold]; simp
      have hlong := ((h3 l).mp hlm).2
      refine ⟨l, .inr (.inl ⟨l1, l2, e, hlong, hnl, ?_⟩), ?_⟩
      · intro x hx' hxl
        have : x ∈ o.oldStrings := (h3 x).mpr ⟨by rw [e]; simp [hx'], hxl⟩
        have := (List.mem_filter.mp this).2
        rw [q x hx'] at this
        exact absurd this (by decide)
      · obtain ⟨c, d, cs, rfl, _⟩ := hlong
        simp
    | nil =>
      have hno : ∀ x ∈ o.strings, ¬ IsOld x := by
        intro x hx' hxl
        have := (h3 x).mpr ⟨hx', hxl⟩
        simp [hold] at this
      have hsh : ∀ x ∈ o.strings, IsShort x := by
        intro x hx'
        rcases hx x hx' with q | q | q
        · exact q.1
        · exact absurd q.2.1 (hnl x hx')
        · exact absurd q.2.2 (hno x hx')
      cases hs : o.strings with
      | nil => exact absurd hs hne
      | cons s rest =>
        have hsm : s ∈ o.strings := by rw [hs]; simp
        have : o.shortStrings = s :: rest.filter isShortOptionString := by
          unfold Opt.shortStrings
          rw [hs, List.filter_cons_of_pos]
          exact (List.mem_filter.mp ((h1 s).mpr ⟨hsm, hsh s hsm⟩)).2
        rw [this]
        refine ⟨s, .inr (.inr ⟨rest, hs, hsh⟩), ?_⟩
        obtain ⟨c, rfl, _⟩ := hsh s hsm
        simp

/-- **C48, names** The name of the variable is a valid identifier exactly if it is not made from the
letter of a short string, or this letter is a letter, a digit or `_`. -/
theorem C48_valid (o : Opt) (h : o.check = true) (hc : o.capture = none) :
    IsShellIdentifier (captureVariable o) ↔ ∀ s, NamingString o s → IsShort s → ∀ c ∈ s.drop 1, WordChar c := by
  obtain ⟨s, hs, he⟩ := C48_name o h hc
  have huniq : ∀ t, NamingString o t → IsShort t → t = s := by
    intro t ht hsh
    obtain ⟨c, rfl, hcd⟩ := hsh
    rcases ht with ⟨l1, l2, _, ⟨d, ds, q⟩, _⟩ | ⟨l1, l2, _, ⟨d, e, ds, q, _⟩, _⟩ | ⟨l2, e, hall⟩
    · simp at q
    · simp at q
    · rcases hs with ⟨l1, l2', e', hl, _⟩ | ⟨l1, l2', e', hl, _⟩ | ⟨l2', e', _⟩
      · have := hall s (by rw [e']; simp)
        obtain ⟨d, rfl, _⟩ := this
        obtain ⟨a, as, q⟩ := hl
        simp at q
      · have := hall s (by rw [e']; simp)
        obtain ⟨d, rfl, _⟩ := this
        obtain ⟨a, b, as, q, _⟩ := hl
        simp at q
      · rw [e] at e'
        exact (List.cons.inj e').1
  rw [he]
  by_cases hlen : s.length = 2
  · rw [if_pos hlen]
    constructor
    · rintro ⟨c, cs, q, _, q2⟩ t ht hsh d hd
      rw [huniq t ht hsh] at hd
      have : d ∈ cs := by
        have q' : cs = ['P', 'T', '_'] ++ s.drop 1 := by
          have := (List.cons.inj q).2
          exact this.symm
        rw [q']; exact List.mem_append_right _ hd
      exact q2 d this
    · intro hall
      have hsh : IsShort s := by
        rcases hs with ⟨l1, l2, e, ⟨a, as, rfl⟩, _⟩ | ⟨l1, l2, e, ⟨a, b, as, rfl, _⟩, _⟩ | ⟨l2, e, hall'⟩
        · simp at hlen
        · simp at hlen
        · exact hall' s (by rw [e]; simp)
      exact ident_prefix (hall s hs hsh)
  · rw [if_neg hlen]
    constructor
    · intro _ t ht hsh
      have := huniq t ht hsh
      subst this
      obtain ⟨c, rfl, _⟩ := hsh
      simp at hlen
    · intro _
      exact ident_prefix (identifier_chars (C04_make_identifier_valid _))

/-- Names of letters, digits and single hyphens between them. -/
def PlainName : Str → Prop
  | [] => False
  | c :: cs => c.isAlphanum = true ∧ (∀ d ∈ cs, d.isAlphanum = true ∨ d = '-') ∧ ∀ l r, cs ≠ l ++ '-' :: '-' :: r

/-- Hyphens to underscores. -/
def dashUnderscore (c : Char) : Char := if c = '-' then '_' else c

theorem alnum_ne {c : Char} (h : c.isAlphanum = true) : c ≠ '-' ∧ c ≠ '_' := by
  constructor <;> (rintro rfl; exact absurd h (by decide))

theorem noDouble_map {s : Str} (h : ∀ d ∈ s, d.isAlphanum = true ∨ d = '-') (h2 : ∀ l r, s ≠ l ++ '-' :: '-' :: r) :
    noDoubleUnderscore (s.map dashUnderscore) = true := by
  induction s with
  | nil => rfl
  | cons a s ih =>
    have ih' := ih (fun d hd => h d (by simp [hd])) (fun l r q => h2 (a :: l) r (by rw [q]; rfl))
    simp only [List.map_cons]
    rcases h a (by simp) with ha | rfl
    · have hx : dashUnderscore a = a := by simp [dashUnderscore, (alnum_ne ha).1]
      rw [hx]
      unfold noDoubleUnderscore
      split
      · rename_i q; exact absurd (List.cons.inj q).1 (alnum_ne ha).2
      · rename_i q; rw [← (List.cons.inj q).2]; exact ih'
      · rfl
    · cases s with
      | nil => rfl
      | cons b s =>
        rcases h b (by simp) with hb | rfl
        · have hx : dashUnderscore b = b := by simp [dashUnderscore, (alnum_ne hb).1]
          have hd : dashUnderscore '-' = '_' := rfl
          rw [hd]
          simp only [List.map_cons, hx] at ih' ⊢
          unfold noDoubleUnderscore
          split
          · rename_i q
            exact absurd (List.cons.inj (List.cons.inj q).2).1 (alnum_ne hb).2
          · rename_i q; rw [← (List.cons.inj q).2]; exact ih'
          · rfl
        · exact absurd rfl (h2 [] s)

theorem makeIdentifier_plain {s : Str} (h : PlainName s) :
    ∃ c cs, s = c :: cs ∧ c.isAlphanum = true ∧ (∀ d ∈ cs, d.isAlphanum = true ∨ d = '-') ∧
      makeIdentifier s = if c.isDigit = true then '_' :: c :: cs.map dashUnderscore else c :: cs.map dashUnderscore := by
  cases s with
  | nil => exact absurd h (by simp [PlainName])
  | cons c cs =>
    obtain ⟨h1, h2, h3⟩ := h
    refine ⟨c, cs, rfl, h1, h2, ?_⟩
    have hm : (c :: cs).map (fun c => if c = '-' then '_' else c) = c :: cs.map dashUnderscore := by
      simp only [List.map_cons, (alnum_ne h1).1, if_false]
      rfl
    have hall : ∀ d ∈ c :: cs.map dashUnderscore, d.isAlphanum = true ∨ d = '_' := by
      intro d hd
      rcases List.mem_cons.mp hd with rfl | hd
      · exact .inl h1
      · obtain ⟨x, hx, rfl⟩ := List.mem_map.mp hd
        rcases h2 x hx with q | rfl
        · left; simp [dashUnderscore, (alnum_ne q).1, q]
        · exact .inr rfl
    have hf : (c :: cs.map dashUnderscore).filter (fun c => Char.isAlphanum c || c == '_') = c :: cs.map dashUnderscore := by
      apply List.filter_eq_self.mpr
      intro d hd
      simpa using hall d hd
    have hn : noDoubleUnderscore (c :: cs.map dashUnderscore) = true := by
      have := noDouble_map (s := cs) h2 h3
      unfold noDoubleUnderscore
      split
      · rename_i q; exact absurd (List.cons.inj q).1 (alnum_ne h1).2
      · rename_i q; rw [← (List.cons.inj q).2]; exact this
      · rfl
    unfold makeIdentifier
    simp only [hm, hf, collapse_id hn]

theorem map_dash_inj {s t : Str} (hs : ∀ d ∈ s, d.isAlphanum = true ∨ d = '-') (ht : ∀ d ∈ t, d.isAlphanum = true ∨ d = '-')
    (h : s.map dashUnderscore = t.map dashUnderscore) : s = t := by
  induction s generalizing t with
  | nil => cases t with
    | nil => rfl
    | cons b t => simp at h
  | cons a s ih =>
    cases t with
    | nil => simp at h
    | cons b t =>
      simp only [List.map_cons, List.cons.injEq] at h
      rw [ih (fun d hd => hs d (by simp [hd])) (fun d hd => ht d (by simp [hd])) h.2]
      congr 1
      have h1 := h.1
      rcases hs a (by simp) with qa | rfl <;> rcases ht b (by simp) with qb | rfl
      · simpa [dashUnderscore, (alnum_ne qa).1, (alnum_ne qb).1] using h1
      · simp [dashUnderscore, (alnum_ne qa).1] at h1
        exact absurd h1 (alnum_ne qa).2
      · simp [dashUnderscore, (alnum_ne qb).1] at h1
        exact absurd h1.symm (alnum_ne qb).2
      · rfl

theorem plain_inj {s t : Str} (hs : PlainName s) (ht : PlainName t) (h : makeIdentifier s = makeIdentifier t) : s = t := by
  obtain ⟨c, cs, rfl, h1, h2, h3⟩ := makeIdentifier_plain hs
  obtain ⟨d, ds, rfl, g1, g2, g3⟩ := makeIdentifier_plain ht
  rw [h3, g3] at h
  split at h <;> split at h
  · simp only [List.cons.injEq, true_and] at h
    rw [h.1, map_dash_inj h2 g2 h.2]
  · simp only [List.cons.injEq] at h
    exact absurd h.1.symm (alnum_ne g1).2
  · simp only [List.cons.injEq] at h
    exact absurd h.1 (alnum_ne h1).2
  · simp only [List.cons.injEq] at h
    rw [h.1, map_dash_inj h2 g2 h.2]

theorem letter_inj {x : Str} {t : Str} (hx : ∃ c, x = [c] ∧ c.isAlphanum = true) (ht : PlainName t)
    (h : x = makeIdentifier t) : x = t := by
  obtain ⟨c, rfl, hc⟩ := hx
  obtain ⟨d, ds, rfl, g1, g2, g3⟩ := makeIdentifier_plain ht
  rw [g3] at h
  split at h
  · simp at h
  · simp only [List.cons.injEq] at h
    rw [h.1]
    have := h.2.symm
    simp at this
    rw [this]

/-- **C48 (partial)** Options without a variable of their own are recorded in different variables if the
texts that name them differ by more than leading dashes and consist of letters, digits and single
hyphens. Missing: other names, for which it is false (see below). -/
theorem C48_distinct_partial (a b : Opt) (ha : a.check = true) (hb : b.check = true) (ca : a.capture = none)
    (cb : b.capture = none)
    (pa : ∀ s, NamingString a s → PlainName (s.dropWhile (· == '-')))
    (pb : ∀ s, NamingString b s → PlainName (s.dropWhile (· == '-')))
    (hne : ∀ s t, NamingString a s → NamingString b t → s.dropWhile (· == '-') ≠ t.dropWhile (· == '-')) :
    captureVariable a ≠ captureVariable b := by
  obtain ⟨s, hs, es⟩ := C48_name a ha ca
  obtain ⟨t, ht, et⟩ := C48_name b hb cb
  rw [es, et]
  intro h
  have h := List.append_cancel_left h
  have short : ∀ {o : Opt} {s : Str}, NamingString o s → s.length = 2 → PlainName (s.dropWhile (· == '-')) →
      s.drop 1 = s.dropWhile (· == '-') ∧ ∃ c, s.drop 1 = [c] ∧ c.isAlphanum = true := by
    intro o s hs hlen hp
    have hsh : IsShort s := by
      rcases hs with ⟨l1, l2, e, ⟨a, as, rfl⟩, _⟩ | ⟨l1, l2, e, ⟨a, b, as, rfl, _⟩, _⟩ | ⟨l2, e, hall'⟩
      · simp at hlen
      · simp at hlen
      · exact hall' s (by rw [e]; simp)
    obtain ⟨c, rfl, hc⟩ := hsh
    have : ((['-', c] : Str).dropWhile (· == '-')) = [c] := by simp [hc]
    rw [this] at hp
    exact ⟨by rw [this]; rfl, c, rfl, hp.1⟩
  apply hne s t hs ht
  split at h <;> split at h
  · rename_i l1 l2
    rw [← (short hs l1 (pa s hs)).1, ← (short ht l2 (pb t ht)).1]; exact h
  · rename_i l1 l2
    obtain ⟨q, r⟩ := short hs l1 (pa s hs)
    rw [← q]
    exact letter_inj r (pb t ht) h
  · rename_i l1 l2
    obtain ⟨q, r⟩ := short ht l2 (pb t ht)
    rw [← q]
    exact (letter_inj r (pa s hs) h.symm).symm
  · exact plain_inj (pa s hs) (pb t ht) h

/-- **C48 is false** `--foo-bar` and `--foo_bar`, and `-f` and `--f`, have the same variable. -/
theorem C48_collisions :
    captureVariable { strings := [S "--foo-bar"] } = captureVariable { strings := [S "--foo_bar"] } ∧
    captureVariable { strings := [S "-f"] } = captureVariable { strings := [S "--f"] } := by
  decide

/-- **C48 is false** The variable of `-?` is not an identifier. -/
theorem C48_invalid : ¬ IsShellIdentifier (captureVariable { strings := [S "-?"] }) := by
  rintro ⟨c, cs, h, _, h2⟩
  have : cs = ['P', 'T', '_', '?'] := ((List.cons.inj (show (['O', 'P', 'T', '_', '?'] : Str) = c :: cs from h)).2).symm
  have := h2 '?' (by rw [this]; simp)
  revert this; decide

/-- The effect: after `--foo-bar`, the option `--foo_bar` is no longer offered. -/
theorem C48_not_offered :
    let a : Opt := { strings := [S "--foo-bar"], repeatable := .val false }
    let b : Opt := { strings := [S "--foo_bar"], repeatable := .val false }
    (optionCode (fun _ => true) [] (.node { prog := S "prog", options := [a, b] } none [])).toOption.map
      (fun code => (code.offers (fun _ _ _ => false) ⟨fun _ => [], []⟩ false (S "--"),
        code.offers (fun _ _ _ => false) ⟨fun v => if v = captureVariable a then [S "_OPT_ISSET_"] else [], []⟩ false (S "--"))) =
      some ([S "--foo-bar", S "--foo_bar"], []) := by
  decide +kernel

/-- Options that meet the hypotheses of `C48_distinct_partial`. -/
theorem C48_example :
    let a : Opt := { strings := [S "-o", S "--out-file"] }
    let b : Opt := { strings := [S "-v"] }
    a.check = true ∧ b.check = true ∧ captureVariable a = S "OPT_out_file" ∧ captureVariable b = S "OPT_v" ∧
    (∀ s, NamingString a s ↔ s = S "--out-file") ∧ (∀ s, NamingString b s ↔ s = S "-v") ∧
    PlainName (S "out-file") ∧ PlainName (S "v") := by
  intro a b
  refine ⟨by decide, by decide, by decide, by decide, ?_, ?_, ?_, ?_⟩
  · intro s
    constructor
    · rintro (⟨l1, l2, e, ⟨c, cs, rfl⟩, _⟩ | ⟨l1, l2, e, _, h, _⟩ | ⟨l2, e, h⟩)
      · have hm : ('-' :: '-' :: c :: cs) ∈ a.strings := by rw [e]; simp
        have hm' : ('-' :: '-' :: c :: cs) = S "-o" ∨ ('-' :: '-' :: c :: cs) = S "--out-file" := by simpa [a] using hm
        rcases hm' with q | q
        · have q' : '-' :: '-' :: c :: cs = ['-', 'o'] := q
          simp at q'
        · exact q
      · exact absurd ⟨'o', S "ut-file", rfl⟩ (h (S "--out-file") (by simp [a]))
      · obtain ⟨c, q, _⟩ := h (S "--out-file") (by simp [a])
        exact absurd q (by simp [S])
    · rintro rfl
      refine .inl ⟨[S "-o"], [], rfl, ⟨'o', S "ut-file", rfl⟩, ?_⟩
      rintro x hx ⟨c, cs, q⟩
      simp at hx
      subst hx
      simp [S] at q
  · intro s
    constructor
    · rintro (⟨l1, l2, e, _⟩ | ⟨l1, l2, e, _⟩ | ⟨l2, e, h⟩)
      · have hm : s ∈ b.strings := by rw [e]; simp
        simpa [b] using hm
      · have hm : s ∈ b.strings := by rw [e]; simp
        simpa [b] using hm
      · have hm : s ∈ b.strings := by rw [e]; simp
        simpa [b] using hm
    · rintro rfl
      refine .inr (.inr ⟨[], rfl, ?_⟩)
      intro x hx
      have : x = S "-v" := by simpa [b] using hx
      exact ⟨'v', this, by decide⟩
  · refine ⟨by decide, by decide, ?_⟩
    intro l r h
    have h1 : (1 : Nat) = (List.filter (· == '-') (l ++ '-' :: '-' :: r)).length := by
      rw [← h]; decide
    simp [List.filter_append] at h1
    omega
  · exact ⟨by decide, by simp, by simp⟩

end CC
