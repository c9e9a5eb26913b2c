import Verif.Lemmas.BashParser
import Verif.Lemmas.Walk
import Verif.Spec.KnownOption
import Verif.Props.Misc
import Verif.Props.FishQuery
/-!
# Lemmas about the cases generated for a tree of commands
-/

namespace CC

/-! ## Names -/

/-- The names of some strings of an option, without the errors. -/
def namesOf (parents : List Cmd) (c : Cmd) (strings : List Str) : List Str :=
  if c.data.abbreviateOptions = .val true then
    strings.flatMap (abbreviationsOf 3 ((getOptions parents c (decide (c.data.inheritOptions = .val true)) false).flatMap
      (fun o => o.longStrings ++ o.oldStrings)))
  else strings

theorem getMany_eq {min : Nat} {words ws l : List Str} (h : getManyAbbreviations min words ws = .ok l) :
    l = ws.flatMap (abbreviationsOf min words) := by
  induction ws generalizing l with
  | nil => simp [getManyAbbreviations] at h; simp [h]
  | cons w ws ih =>
    simp only [getManyAbbreviations] at h
    cases h1 : getAbbreviations min words w with
    | error e => rw [h1] at h; simp [bind, Except.bind] at h
    | ok a =>
      cases h2 : getManyAbbreviations min words ws with
      | error e => rw [h1, h2] at h; simp [bind, Except.bind] at h
      | ok r =>
        rw [h1, h2] at h
        simp [bind, Except.bind] at h
        rw [← h, ih h2]
        unfold getAbbreviations at h1
        split at h1
        · simp at h1; simp [h1]
        · simp at h1

theorem optionNames_eq {parents : List Cmd} {c : Cmd} {ws l : List Str} (h : optionNames parents c ws = .ok l) :
    l = namesOf parents c ws := by
  unfold optionNames at h
  unfold namesOf
  by_cases ha : c.data.abbreviateOptions = .val true
  · rw [if_pos ha] at h ⊢
    simp only at h
    split at h
    · exact getMany_eq h
    · simp at h
  · rw [if_neg ha] at h ⊢
    simp at h; exact h.symm

/-- With abbreviations, all words have at least three letters. -/
theorem optionNames_words {parents : List Cmd} {c : Cmd} {ws l : List Str} (h : optionNames parents c ws = .ok l)
    (ha : c.data.abbreviateOptions = .val true) :
    ∀ w ∈ (getOptions parents c (decide (c.data.inheritOptions = .val true)) false).flatMap
      (fun o => o.longStrings ++ o.oldStrings), 3 ≤ w.length := by
  unfold optionNames at h
  rw [if_pos ha] at h
  simp only at h
  split at h
  · rename_i hw
    intro w hm
    rw [List.all_eq_true] at hw
    have := hw w hm
    unfold optionWordOk at this
    split at this
    · rename_i h1; simp at h1; omega
    · split at this
      · rename_i h1; simp at h1; omega
      · simp at this
  · simp at h

/-- The case of an option, without the errors. -/
def boptOf (e : List Cmd × Cmd) (o : Opt) : BOpt :=
  { longs := namesOf e.1 e.2 o.longStrings ++ namesOf e.1 e.2 o.oldStrings
    shorts := o.shortStrings, kind := o.kind, var := captureVariable o }

/-- The block of a command, without the errors. -/
def blockOf (e : List Cmd × Cmd) : Block :=
  { path := subcommandPath e.1 e.2, inherits := decide (e.2.data.inheritOptions = .val true)
    opts := (getOptions e.1 e.2 false false).map (boptOf e) }

theorem mapE_eq {α β} {f : α → Except Err β} {g : α → β} (hg : ∀ x y, f x = .ok y → y = g x) {l : List α} {ys : List β}
    (h : mapE f l = .ok ys) : ys = l.map g ∧ ∀ x ∈ l, ∃ y, f x = .ok y := by
  induction l generalizing ys with
  | nil => simp [mapE] at h; simp [← h]
  | cons x xs ih =>
    simp only [mapE] at h
    cases h1 : f x with
    | error e => rw [h1] at h; simp [bind, Except.bind] at h
    | ok y =>
      cases h2 : mapE f xs with
      | error e => rw [h1, h2] at h; simp [bind, Except.bind] at h
      | ok zs =>
        rw [h1, h2] at h
        simp [bind, Except.bind] at h
        have ⟨h3, h4⟩ := ih h2
        refine ⟨by rw [← h, List.map_cons, hg x y h1, h3], ?_⟩
        intro z hz
        simp only [List.mem_cons] at hz
        rcases hz with rfl | hz
        · exact ⟨y, h1⟩
        · exact h4 z hz

theorem bashOption_eq {e : List Cmd × Cmd} {o : Opt} {b : BOpt} (h : bashOption e.1 e.2 o = .ok b) :
    b = boptOf e o ∧ (∃ l, optionNames e.1 e.2 o.longStrings = .ok l) := by
  unfold bashOption at h
  cases h1 : optionNames e.1 e.2 o.longStrings with
  | error x => rw [h1] at h; simp [bind, Except.bind] at h
  | ok l =>
    cases h2 : optionNames e.1 e.2 o.oldStrings with
    | error x => rw [h1, h2] at h; simp [bind, Except.bind] at h
    | ok old =>
      rw [h1, h2] at h
      simp [bind, Except.bind] at h
      refine ⟨?_, l, rfl⟩
      rw [← h]
      unfold boptOf
      rw [optionNames_eq h1, optionNames_eq h2]

theorem bashBlock_eq {e : List Cmd × Cmd} {b : Block} (h : bashBlock e = .ok b) :
    b = blockOf e ∧ ∀ o ∈ getOptions e.1 e.2 false false, ∃ l, optionNames e.1 e.2 o.longStrings = .ok l := by
  unfold bashBlock at h
  cases h1 : mapE (bashOption e.1 e.2) (getOptions e.1 e.2 false false) with
  | error x => rw [h1] at h; simp [bind, Except.bind] at h
  | ok os =>
    rw [h1] at h
    simp [bind, Except.bind] at h
    have ⟨h2, h3⟩ := mapE_eq (g := boptOf e) (fun x y hxy => (bashOption_eq hxy).1) h1
    refine ⟨by rw [← h, h2]; rfl, ?_⟩
    intro o ho
    obtain ⟨y, hy⟩ := h3 o ho
    exact (bashOption_eq hy).2

theorem bashBlocks_eq {root : Cmd} {blocks : List Block} (h : bashBlocks root = .ok blocks) :
    blocks = (root.walk []).reverse.map blockOf ∧ ∀ e : List Cmd × Cmd, At root e.1 e.2 →
      ∀ o ∈ getOptions e.1 e.2 false false, ∃ l, optionNames e.1 e.2 o.longStrings = .ok l := by
  unfold bashBlocks at h
  have ⟨h1, h2⟩ := mapE_eq (g := blockOf) (fun x y hxy => (bashBlock_eq hxy).1) h
  refine ⟨h1, ?_⟩
  intro e he
  obtain ⟨y, hy⟩ := h2 e (by simp; exact (mem_walk_iff root e.1 e.2).mpr he)
  exact (bashBlock_eq hy).2

/-! ## Options -/

theorem optStrings_iff {o : Opt} (h : ∀ s ∈ o.strings, IsOption s ∧ '=' ∉ s) (s : Str) :
    (s ∈ o.shortStrings ↔ s ∈ o.strings ∧ IsShort s) ∧ (s ∈ o.longStrings ↔ s ∈ o.strings ∧ IsLong s) ∧
    (s ∈ o.oldStrings ↔ s ∈ o.strings ∧ IsOld s) := by
  unfold Opt.shortStrings Opt.longStrings Opt.oldStrings
  simp only [List.mem_filter]
  refine ⟨?_, ?_, ?_⟩
  · constructor <;> rintro ⟨h1, h2⟩
    · exact ⟨h1, (short_iff s ((isValidOptionString_iff s).mpr (h s h1).1)).mp h2⟩
    · exact ⟨h1, (short_iff s ((isValidOptionString_iff s).mpr (h s h1).1)).mpr h2⟩
  · constructor <;> rintro ⟨h1, h2⟩
    · exact ⟨h1, (long_iff s ((isValidOptionString_iff s).mpr (h s h1).1)).mp h2⟩
    · exact ⟨h1, (long_iff s ((isValidOptionString_iff s).mpr (h s h1).1)).mpr h2⟩
  · constructor <;> rintro ⟨h1, h2⟩
    · exact ⟨h1, (old_iff s ((isValidOptionString_iff s).mpr (h s h1).1)).mp h2⟩
    · exact ⟨h1, (old_iff s ((isValidOptionString_iff s).mpr (h s h1).1)).mpr h2⟩

theorem option_kinds {s : Str} (h : IsOption s) : IsShort s ∨ IsLong s ∨ IsOld s := by
  rcases C15_exactly_one s ((isValidOptionString_iff s).mpr h) with h | h | h
  · exact Or.inl h.1
  · exact Or.inr (Or.inl h.2.1)
  · exact Or.inr (Or.inr h.2.2)

theorem long_or_old_length {s : Str} (h : IsLong s ∨ IsOld s) : 3 ≤ s.length := by
  rcases h with ⟨c, cs, rfl⟩ | ⟨c, d, cs, rfl, -⟩ <;> simp

/-- Options seen from a command come from a command of the tree. -/
theorem getOptions_from {root : Cmd} {parents : List Cmd} {c : Cmd} (hat : At root parents c) {wp : Bool} {o : Opt}
    (h : o ∈ getOptions parents c wp false) : ∃ qs x, At root qs x ∧ o ∈ x.data.options := by
  obtain ⟨pre, x, post, h1, h2, -⟩ := (C16_mem root parents c hat wp false o).mp h
  have hx : x ∈ parents ++ [c] := by
    unfold searched at h1
    cases wp with
    | true =>
      have : x ∈ pre ++ x :: post := by simp
      simp only [if_true] at h1
      rw [← h1] at this
      simpa [or_comm] using this
    | false =>
      have : x ∈ pre ++ x :: post := by simp
      simp only [Bool.false_eq_true, if_false] at h1
      rw [← h1] at this
      simp at this; simp [this]
  obtain ⟨l1, l2, h3⟩ := List.append_of_mem hx
  have := at_prefix hat (l1, x) (by rw [h3]; simpa using chainEntries_mem [] l1 x l2)
  exact ⟨l1, x, this, by simpa [eligible] using h2⟩

/-- The names of an option in the generated cases are those of the specification. -/
theorem boptOf_names {root : Cmd} (ho : CleanOptions root) {e : List Cmd × Cmd} (hat : At root e.1 e.2) {o : Opt}
    (hm : o ∈ e.2.data.options) (s : Str) :
    ((boptOf e o).shorts.contains s || (boptOf e o).longs.contains s) = true ↔ NamesOption e.1 e.2 s o := by
  have hv := ho.valid _ _ hat o hm
  have hi := optStrings_iff hv
  unfold NamesOption boptOf namesOf Inherits
  simp only [Bool.or_eq_true, List.contains_eq_mem, decide_eq_true_eq, List.mem_append, hm, true_and]
  by_cases ha : e.2.data.abbreviateOptions = .val true
  · simp only [ha, if_true, List.mem_flatMap, mem_abbreviationsOf, (hi _).1, (hi _).2.1, (hi _).2.2]
    have hwords : ∀ w, (∃ x, x ∈ getOptions e.1 e.2 (decide (e.2.data.inheritOptions = .val true)) false ∧
        w ∈ x.longStrings ++ x.oldStrings) ↔
        ∃ x ∈ getOptions e.1 e.2 (decide (e.2.data.inheritOptions = .val true)) false, w ∈ x.strings ∧ (IsLong w ∨ IsOld w) := by
      intro w
      constructor
      · rintro ⟨x, hx, hw⟩
        obtain ⟨qs, y, hy, hxy⟩ := getOptions_from hat hx
        have hj := optStrings_iff (ho.valid _ _ hy x hxy) w
        simp only [List.mem_append, hj.2.1, hj.2.2] at hw
        rcases hw with hw | hw
        · exact ⟨x, hx, hw.1, Or.inl hw.2⟩
        · exact ⟨x, hx, hw.1, Or.inr hw.2⟩
      · rintro ⟨x, hx, hw, hk⟩
        obtain ⟨qs, y, hy, hxy⟩ := getOptions_from hat hx
        have hj := optStrings_iff (ho.valid _ _ hy x hxy) w
        refine ⟨x, hx, ?_⟩
        simp only [List.mem_append, hj.2.1, hj.2.2]
        rcases hk with hk | hk
        · exact Or.inl ⟨hw, hk⟩
        · exact Or.inr ⟨hw, hk⟩
    constructor
    · have key : ∀ l, l ∈ o.strings → (IsLong l ∨ IsOld l) → (s <+: l ∧ 3 ≤ s.length ∧ (s = l ∨ ∀ w, (∃ x,
          x ∈ getOptions e.1 e.2 (decide (e.2.data.inheritOptions = .val true)) false ∧ w ∈ x.longStrings ++ x.oldStrings) →
          w ≠ l → ¬ s <+: w)) → s ∈ o.strings ∨ (True ∧ 3 ≤ s.length ∧ ∃ l ∈ o.strings, (IsLong l ∨ IsOld l) ∧ s <+: l ∧
            ∀ x ∈ getOptions e.1 e.2 (decide (e.2.data.inheritOptions = .val true)) false, ∀ l' ∈ x.strings,
              (IsLong l' ∨ IsOld l') → l' ≠ l → ¬ s <+: l') := by
        rintro l hl hk ⟨h1, h2, h3⟩
        rcases h3 with rfl | h3
        · exact Or.inl hl
        · refine Or.inr ⟨trivial, h2, l, hl, hk, h1, ?_⟩
          intro x hx l' hl' hk' hne
          exact h3 l' ((hwords l').mpr ⟨x, hx, hl', hk'⟩) hne
      rintro (⟨h1, -⟩ | ⟨l, ⟨hl, hk⟩, h⟩ | ⟨l, ⟨hl, hk⟩, h⟩)
      · exact Or.inl h1
      · exact key l hl (Or.inl hk) h
      · exact key l hl (Or.inr hk) h
    · rintro (h | ⟨-, h1, l, hl, hk, h2, h3⟩)
      · rcases option_kinds (hv s h).1 with hk | hk | hk
        · exact Or.inl ⟨h, hk⟩
        · exact Or.inr (Or.inl ⟨s, ⟨h, hk⟩, List.prefix_refl s, long_or_old_length (Or.inl hk), Or.inl rfl⟩)
        · exact Or.inr (Or.inr ⟨s, ⟨h, hk⟩, List.prefix_refl s, long_or_old_length (Or.inr hk), Or.inl rfl⟩)
      · have h4 : ∀ w, (∃ x, x ∈ getOptions e.1 e.2 (decide (e.2.data.inheritOptions = .val true)) false ∧
            w ∈ x.longStrings ++ x.oldStrings) → w ≠ l → ¬ s <+: w := by
          intro w hw hne
          obtain ⟨x, hx, hxw, hkw⟩ := (hwords w).mp hw
          exact h3 x hx w hxw hkw hne
        rcases hk with hk | hk
        · exact Or.inr (Or.inl ⟨l, ⟨hl, hk⟩, h2, h1, Or.inr h4⟩)
        · exact Or.inr (Or.inr ⟨l, ⟨hl, hk⟩, h2, h1, Or.inr h4⟩)
  · simp only [ha, if_false, (hi _).1, (hi _).2.1, (hi _).2.2]
    constructor
    · rintro (h | h | h) <;> exact Or.inl h.1
    · rintro (h | h)
      · rcases option_kinds (hv s h).1 with hk | hk | hk
        · exact Or.inl ⟨h, hk⟩
        · exact Or.inr (Or.inl ⟨h, hk⟩)
        · exact Or.inr (Or.inr ⟨h, hk⟩)
      · exact absurd h.1 (by simp)

theorem prefix_noeq {s l : Str} (h : s <+: l) (hl : '=' ∉ l) : '=' ∉ s := by
  obtain ⟨t, rfl⟩ := h
  intro hm; exact hl (by simp [hm])

/-- The generated cases meet the conditions of the word lemmas. -/
theorem blocks_ok {root : Cmd} (ho : CleanOptions root) : BlocksOk ((root.walk []).reverse.map blockOf) := by
  have hget : ∀ b ∈ (root.walk []).reverse.map blockOf, ∀ o ∈ b.opts, ∃ e : List Cmd × Cmd, At root e.1 e.2 ∧
      ∃ p ∈ e.2.data.options, o = boptOf e p := by
    intro b hb o hob
    obtain ⟨e, he, rfl⟩ := List.mem_map.mp hb
    have hat : At root e.1 e.2 := (mem_walk_iff root e.1 e.2).mp (by simpa using he)
    obtain ⟨p, hp, rfl⟩ := List.mem_map.mp hob
    exact ⟨e, hat, p, (ownOptions_mem hat p).mp hp, rfl⟩
  constructor
  · intro b hb o hob s hs
    obtain ⟨e, hat, p, hp, rfl⟩ := hget b hb o hob
    exact ((optStrings_iff (ho.valid _ _ hat p hp) s).1.mp hs).2
  · intro b hb o hob s hs
    obtain ⟨e, hat, p, hp, rfl⟩ := hget b hb o hob
    have hv := ho.valid _ _ hat p hp
    have hi := optStrings_iff hv
    simp only [boptOf, namesOf] at hs
    by_cases ha : e.2.data.abbreviateOptions = .val true
    · simp only [ha, if_true, List.mem_append, List.mem_flatMap, mem_abbreviationsOf] at hs
      rcases hs with ⟨l, hl, h1, h2, -⟩ | ⟨l, hl, h1, h2, -⟩
      · exact ⟨h2, prefix_noeq h1 (hv l ((hi l).2.1.mp hl).1).2⟩
      · exact ⟨h2, prefix_noeq h1 (hv l ((hi l).2.2.mp hl).1).2⟩
    · simp only [ha, if_false, List.mem_append] at hs
      rcases hs with hs | hs
      · have := (hi s).2.1.mp hs
        exact ⟨long_or_old_length (Or.inl this.2), (hv s this.1).2⟩
      · have := (hi s).2.2.mp hs
        exact ⟨long_or_old_length (Or.inr this.2), (hv s this.1).2⟩

end CC

namespace CC

/-! ## Paths -/

theorem split_inj {x : Char} {u v a b : Str} (hu : x ∉ u) (hv : x ∉ v) (h : u ++ x :: a = v ++ x :: b) : u = v ∧ a = b := by
  induction u generalizing v with
  | nil =>
    cases v with
    | nil => simpa using h
    | cons y v => simp at h; exact absurd h.1 (fun e => hv (by simp [e]))
  | cons z u ih =>
    cases v with
    | nil => simp at h; exact absurd h.1.symm (fun e => hu (by simp [e]))
    | cons y v =>
      simp only [List.cons_append, List.cons.injEq] at h
      obtain ⟨h1, h2⟩ := ih (fun hm => hu (by simp [hm])) (fun hm => hv (by simp [hm])) h.2
      exact ⟨by rw [h.1, h1], h2⟩

theorem bar_inj {a b : Str} {m n : Nat} (h : a ++ '|' :: natStr m = b ++ '|' :: natStr n) : a = b ∧ m = n := by
  have hno : ∀ k, '|' ∉ (natStr k).reverse := by
    intro k hm
    have := natStr_isDigit (List.mem_reverse.mp hm)
    exact absurd this (by decide)
  have h1 := congrArg List.reverse h
  simp only [List.reverse_append, List.reverse_cons, List.append_assoc, List.singleton_append] at h1
  obtain ⟨h2, h3⟩ := split_inj (hno m) (hno n) h1
  exact ⟨by simpa using congrArg List.reverse h3, natStr_inj (by simpa using congrArg List.reverse h2)⟩

theorem joinWith_cons2 (sep x y : Str) (ys : List Str) : joinWith sep (x :: y :: ys) = x ++ sep ++ joinWith sep (y :: ys) := rfl

theorem prefix_before {x : Char} {u v b : Str} (hu : x ∉ u) (h : u <+: v ++ x :: b) : u <+: v := by
  induction u generalizing v with
  | nil => exact List.nil_prefix
  | cons z u ih =>
    cases v with
    | nil => obtain ⟨t, ht⟩ := h; simp at ht; exact absurd ht.1.symm (fun e => hu (by simp [e]))
    | cons y v =>
      rw [List.cons_append, List.cons_prefix_cons] at h
      rw [List.cons_prefix_cons]
      exact ⟨h.1, ih (fun hm => hu (by simp [hm])) h.2⟩

/-- One joined path begins another. -/
theorem joined_prefix (xs : List Str) : ∀ (x : Str) (ys : List Str) (y : Str), (∀ z ∈ x :: xs, ':' ∉ z) → (∀ z ∈ y :: ys, ':' ∉ z) →
    joinWith [':'] (x :: xs) <+: joinWith [':'] (y :: ys) →
    ∃ init last last' rest, x :: xs = init ++ [last] ∧ y :: ys = init ++ last' :: rest ∧ last <+: last' := by
  induction xs with
  | nil =>
    intro x ys y hx hy h
    refine ⟨[], x, y, ys, rfl, rfl, ?_⟩
    cases ys with
    | nil => exact h
    | cons y2 ys =>
      rw [joinWith_cons2] at h
      simp only [List.append_assoc, List.singleton_append] at h
      exact prefix_before (hx x (by simp)) h
  | cons x2 xs ih =>
    intro x ys y hx hy h
    rw [joinWith_cons2] at h
    cases ys with
    | nil =>
      obtain ⟨t, ht⟩ := h
      have : ':' ∈ y := by
        have e : joinWith [':'] [y] = y := rfl
        rw [e] at ht
        rw [← ht]; simp
      exact absurd this (hy y (by simp))
    | cons y2 ys =>
      rw [joinWith_cons2] at h
      obtain ⟨t, ht⟩ := h
      simp only [List.append_assoc, List.singleton_append, List.cons_append] at ht
      obtain ⟨h1, h2⟩ := split_inj (hx x (by simp)) (hy y (by simp)) ht
      obtain ⟨init, last, last', rest, h3, h4, h5⟩ := ih x2 ys y2 (fun z hz => hx z (by simp [hz]))
        (fun z hz => hy z (by simp [hz])) ⟨t, h2⟩
      exact ⟨x :: init, last, last', rest, by rw [h3]; rfl, by rw [h1, h4]; rfl, h5⟩

theorem joinWith_append (sep : Str) (xs : List Str) (y : Str) (ys : List Str) :
    joinWith sep xs <+: joinWith sep (xs ++ y :: ys) := by
  induction xs with
  | nil => exact List.nil_prefix
  | cons x xs ih =>
    cases xs with
    | nil => exact ⟨sep ++ joinWith sep (y :: ys), by simp [joinWith_cons2]; rfl⟩
    | cons x2 xs =>
      obtain ⟨t, ht⟩ := ih
      refine ⟨t, ?_⟩
      rw [List.cons_append, List.cons_append, joinWith_cons2, joinWith_cons2, List.append_assoc, ht]
      rfl

theorem chain_noColon {root : Cmd} (hn : CleanNames root) {parents : List Cmd} {c : Cmd} (hat : At root parents c) :
    ∀ d ∈ (parents ++ [c]).drop 1, ':' ∉ d.data.prog := by
  induction hat with
  | root => simp
  | @child parents c d hat hd ih =>
    intro x hx
    rw [List.drop_append_of_le_length (by simp)] at hx
    simp only [List.mem_append, List.mem_singleton] at hx
    rcases hx with hx | rfl
    · exact ih x hx
    · exact hn.colon _ _ hat _ hd

theorem drop_one_at {root : Cmd} {parents : List Cmd} {c : Cmd} {rest : List Cmd} (h : parents ++ [c] = root :: rest) :
    (parents ++ [c]).drop 1 = rest := by rw [h]; rfl

theorem nodup_map_inj {α β} {f : α → β} {l : List α} (h : (l.map f).Nodup) {x y : α} (hx : x ∈ l) (hy : y ∈ l)
    (he : f x = f y) : x = y := by
  induction l with
  | nil => simp at hx
  | cons z l ih =>
    simp only [List.map_cons, List.nodup_cons, List.mem_map, not_exists, not_and] at h
    simp only [List.mem_cons] at hx hy
    rcases hx with rfl | hx <;> rcases hy with rfl | hy
    · rfl
    · exact absurd he.symm (h.1 y hy)
    · exact absurd he (h.1 x hx)
    · exact ih h.2 hx hy

/-- Along the tree, commands are determined by their names. -/
theorem chain_names {root : Cmd} (hc : CleanTreeM root) (a : List Cmd) : ∀ (ps : List Cmd) (p : Cmd) (b : List Cmd),
    At root ps p → IsChain p a → IsChain p b → a.map (fun x => x.data.prog) = b.map (fun x => x.data.prog) → a = b := by
  induction a with
  | nil => intro ps p b _ _ _ h; cases b with
    | nil => rfl
    | cons => simp at h
  | cons x a ih =>
    intro ps p b hat ha hb h
    cases b with
    | nil => simp at h
    | cons y b =>
      simp only [List.map_cons, List.cons.injEq] at h
      have hxy : x = y := by
        exact nodup_map_inj (hc.names _ _ hat) ha.1 hb.1 h.1
      subst hxy
      rw [ih _ x b (At.child hat ha.1) ha.2 hb.2 h.2]

theorem isChain_append {p : Cmd} {a : List Cmd} {d : Cmd} {b : List Cmd} (h : IsChain p (a ++ d :: b)) : IsChain p (a ++ [d]) := by
  induction a generalizing p with
  | nil => exact ⟨h.1, trivial⟩
  | cons x a ih => exact ⟨h.1, ih h.2⟩

theorem isChain_left {p : Cmd} {a b : List Cmd} (h : IsChain p (a ++ b)) : IsChain p a := by
  induction a generalizing p with
  | nil => trivial
  | cons x a ih => exact ⟨h.1, ih h.2⟩

theorem isChain_last {root : Cmd} (a : List Cmd) : ∀ (ps : List Cmd) (p d e : Cmd), At root ps p → IsChain p (a ++ [d]) → IsChain p (a ++ [e]) →
    ∃ qs q, At root qs q ∧ d ∈ q.children ∧ e ∈ q.children := by
  induction a with
  | nil => intro ps p d e hat hd he; exact ⟨ps, p, hat, hd.1, he.1⟩
  | cons x a ih => intro ps p d e hat hd he; exact ih _ x d e (At.child hat hd.1) hd.2 he.2

theorem cmdpath_split {root : Cmd} (hn : CleanNames root) {parents : List Cmd} {c : Cmd} (hat : At root parents c) :
    splitOn ':' (subcommandPath parents c) = S "root" :: ((parents ++ [c]).drop 1).map (fun x => x.data.prog) := by
  unfold subcommandPath
  rw [splitOn_join ':' _ (by simp)]
  intro x hx
  simp only [List.mem_cons, List.mem_map] at hx
  rcases hx with rfl | ⟨d, hd, rfl⟩
  · decide
  · exact chain_noColon hn hat d hd

/-- Different commands have different paths. -/
theorem path_inj {root : Cmd} (hc : CleanTreeM root) (hn : CleanNames root) {qs parents : List Cmd} {x c : Cmd}
    (hx : At root qs x) (hat : At root parents c) (h : subcommandPath qs x = subcommandPath parents c) : qs = parents ∧ x = c := by
  obtain ⟨r1, e1, c1⟩ := at_isChain hx
  obtain ⟨r2, e2, c2⟩ := at_isChain hat
  have h1 := cmdpath_split hn hx
  rw [h, cmdpath_split hn hat, drop_one_at e1, drop_one_at e2] at h1
  simp only [List.cons.injEq, true_and] at h1
  have := chain_names hc r2 [] root r1 At.root c2 c1 h1
  rw [← this, ← e2] at e1
  have h2 := congrArg List.dropLast e1
  have h3 := congrArg List.getLast? e1
  simp at h2 h3
  exact ⟨h2, h3⟩

/-- The path of a command that passes its options on begins only the paths of commands below it. -/
theorem path_prefix {root : Cmd} (hc : CleanTreeM root) (hn : CleanNames root) {qs parents : List Cmd} {x c : Cmd}
    (hx : At root qs x) (hat : At root parents c) (hi : Inherits x) (h : subcommandPath qs x <+: subcommandPath parents c) :
    ∃ post, parents ++ [c] = qs ++ x :: post := by
  obtain ⟨r1, e1, c1⟩ := at_isChain hx
  obtain ⟨r2, e2, c2⟩ := at_isChain hat
  unfold subcommandPath at h
  rw [drop_one_at e1, drop_one_at e2] at h
  have n1 := chain_noColon hn hx
  have n2 := chain_noColon hn hat
  rw [drop_one_at e1] at n1
  rw [drop_one_at e2] at n2
  obtain ⟨init, last, last', rest, h1, h2, h3⟩ := joined_prefix _ _ _ _ (by
      intro z hz
      simp only [List.mem_cons, List.mem_map] at hz
      rcases hz with rfl | ⟨d, hd, rfl⟩
      · decide
      · exact n1 d hd) (by
      intro z hz
      simp only [List.mem_cons, List.mem_map] at hz
      rcases hz with rfl | ⟨d, hd, rfl⟩
      · decide
      · exact n2 d hd) h
  cases init with
  | nil =>
    simp only [List.nil_append, List.cons.injEq, List.map_eq_nil_iff] at h1
    have : r1 = [] := h1.2
    subst this
    have h4 : qs = [] ∧ x = root := by
      cases qs with
      | nil => simp at e1; exact ⟨rfl, e1⟩
      | cons q qs => simp at e1
    obtain ⟨rfl, rfl⟩ := h4
    exact ⟨r2, by rw [e2]; rfl⟩
  | cons i0 init =>
    simp only [List.cons_append, List.cons.injEq] at h1 h2
    obtain ⟨h1a, h1b⟩ := h1
    obtain ⟨h2a, h2b⟩ := h2
    rw [List.map_eq_append_iff] at h1b h2b
    obtain ⟨a1, b1, rfl, m1, m1b⟩ := h1b
    obtain ⟨a2, b2, rfl, m2, m2b⟩ := h2b
    have hb1 : ∃ d, b1 = [d] ∧ d.data.prog = last := by
      match b1, m1b with
      | [d], h => exact ⟨d, rfl, by simpa using h⟩
    obtain ⟨d, rfl, hd⟩ := hb1
    have hb2 : ∃ d2 r, b2 = d2 :: r ∧ d2.data.prog = last' := by
      match b2, m2b with
      | d2 :: r, h => exact ⟨d2, r, rfl, by simp at h; exact h.1⟩
    obtain ⟨d2, r, rfl, hd2⟩ := hb2
    have ha : a1 = a2 := chain_names hc a1 [] root a2 At.root (isChain_left c1) (isChain_left c2) (by rw [m1, m2])
    subst ha
    obtain ⟨q, y, hy, hk1, hk2⟩ := isChain_last a1 [] root d d2 At.root c1 (isChain_append c2)
    have h5 : qs = root :: a1 ∧ x = d := by
      have h2 := congrArg List.dropLast e1
      have h3 := congrArg List.getLast? e1
      have e : root :: (a1 ++ [d]) = (root :: a1) ++ [d] := rfl
      rw [e] at h2 h3
      rw [List.dropLast_concat, List.dropLast_concat] at h2
      rw [List.getLast?_concat, List.getLast?_concat] at h3
      exact ⟨h2, Option.some.inj h3⟩
    obtain ⟨rfl, rfl⟩ := h5
    have h6 : x = d2 := hn.start _ _ hy _ hk1 _ hk2 hi (by rw [hd, hd2]; exact h3)
    subst h6
    exact ⟨r, by rw [e2]; rfl⟩

theorem path_above {qs parents : List Cmd} {x c : Cmd} {post : List Cmd} (h : parents ++ [c] = qs ++ x :: post) :
    subcommandPath qs x <+: subcommandPath parents c := by
  unfold subcommandPath
  rw [h]
  have : (qs ++ x :: post).drop 1 = (qs ++ [x]).drop 1 ++ post := by
    rw [← List.drop_append_of_le_length (by simp)]; simp
  rw [this, List.map_append]
  cases post with
  | nil => simp
  | cons y ys => exact joinWith_append [':'] (S "root" :: ((qs ++ [x]).drop 1).map (fun x => x.data.prog)) _ _

/-- The blocks for a command: its own, then those of the ancestors whose options it inherits. -/
theorem active_eq {root : Cmd} (hc : CleanTreeM root) (hn : CleanNames root) {parents : List Cmd} {c : Cmd} (hat : At root parents c) :
    ((root.walk []).reverse.map blockOf).filter (Block.active (subcommandPath parents c)) =
      (inheritedFrom parents c).map blockOf := by
  obtain ⟨rest, hchain, hch⟩ := at_isChain hat
  let P : List Cmd × Cmd → Bool := fun e => (blockOf e).active (subcommandPath parents c)
  have hP : ∀ e : List Cmd × Cmd, P e = true ↔
      if Inherits e.2 then subcommandPath e.1 e.2 <+: subcommandPath parents c
      else subcommandPath parents c = subcommandPath e.1 e.2 := by
    intro e
    simp only [P, Block.active, blockOf, Inherits]
    by_cases hi : e.2.data.inheritOptions = .val true
    · simp only [hi, decide_true, if_true, startsWith_prefix]
    · simp only [hi, decide_false, Bool.false_eq_true, if_false]
      exact decide_eq_true_iff
  have hsub : ∀ e ∈ root.walk [], P e = true → e ∈ chainEntries [] (root :: rest) := by
    intro e he hp
    have hate := (mem_walk_iff root e.1 e.2).mp he
    rw [← hchain]
    have := (hP e).mp hp
    by_cases hi : Inherits e.2
    · rw [if_pos hi] at this
      obtain ⟨post, hpost⟩ := path_prefix hc hn hate hat hi this
      rw [hpost]
      have := chainEntries_mem [] e.1 e.2 post
      simpa using this
    · rw [if_neg hi] at this
      obtain ⟨h1, h2⟩ := path_inj hc hn hate hat this.symm
      have hm := chainEntries_mem [] parents c []
      obtain ⟨e1, e2⟩ := e
      simp only at h1 h2
      subst h1 h2
      rwa [List.nil_append] at hm
  have hfilter : (root.walk []).filter P = (chainEntries [] (root :: rest)).filter P :=
    walk_filter_chain P rest [] root hch
      (fun e he => hc.names _ _ ((mem_walk_iff root e.1 e.2).mp he)) hsub
  have hself : P (parents, c) = true := by
    rw [hP]
    split
    · exact List.prefix_refl _
    · rfl
  have hfirst : (chainEntries [] parents).filter P = (chainEntries [] parents).filter (fun e => decide (Inherits e.2)) := by
    apply List.filter_congr
    intro e he
    obtain ⟨pre, post, h1, h2⟩ := mem_chainEntries he
    simp only [List.nil_append] at h2
    have hate : At root e.1 e.2 := at_prefix hat e (by rw [chainEntries_snoc]; simp [he])
    have habove : parents ++ [c] = e.1 ++ e.2 :: (post ++ [c]) := by rw [h1, h2]; simp
    rw [Bool.eq_iff_iff, hP]
    simp only [decide_eq_true_eq]
    constructor
    · intro h
      refine Classical.byContradiction (fun hni => ?_)
      rw [if_neg hni] at h
      obtain ⟨h3, h4⟩ := path_inj hc hn hate hat h.symm
      have := congrArg List.length habove
      rw [h3] at this
      simp at this
    · intro h
      rw [if_pos h]
      exact path_above habove
  rw [List.filter_map, List.filter_reverse]
  have e5 : (Block.active (subcommandPath parents c) ∘ blockOf) = P := rfl
  rw [e5, hfilter, ← hchain, chainEntries_snoc, List.filter_append, hfirst]
  simp only [List.nil_append, List.filter_cons, hself, if_true, List.filter_nil]
  unfold inheritedFrom
  simp

end CC

namespace CC

/-! ## Finding an option -/

theorem inheritedFrom_at {root : Cmd} {parents : List Cmd} {c : Cmd} (hat : At root parents c) :
    ∀ e ∈ inheritedFrom parents c, At root e.1 e.2 := by
  intro e he
  unfold inheritedFrom at he
  simp only [List.mem_cons, List.mem_reverse, List.mem_filter] at he
  rcases he with rfl | ⟨he, -⟩
  · exact hat
  · exact at_prefix hat e (by rw [chainEntries_snoc]; simp [he])

theorem find_eq {root : Cmd} (hc : CleanTreeM root) (hn : CleanNames root) {parents : List Cmd} {c : Cmd} (hat : At root parents c)
    (s : Str) : findBOpt ((root.walk []).reverse.map blockOf) (subcommandPath parents c) s =
      (inheritedFrom parents c).findSome? (fun e => ((getOptions e.1 e.2 false false).map (boptOf e)).find?
        (fun o => o.shorts.contains s || o.longs.contains s)) := by
  unfold findBOpt
  rw [active_eq hc hn hat, List.findSome?_map]
  rfl

/-- Finding an option of one command. -/
theorem find_own {root : Cmd} (ho : CleanOptions root) {e : List Cmd × Cmd} (hat : At root e.1 e.2) (s : Str) :
    (∀ o, NamesOption e.1 e.2 s o → ((getOptions e.1 e.2 false false).map (boptOf e)).find?
      (fun o => o.shorts.contains s || o.longs.contains s) = some (boptOf e o)) ∧
    ((∀ o, ¬ NamesOption e.1 e.2 s o) → ((getOptions e.1 e.2 false false).map (boptOf e)).find?
      (fun o => o.shorts.contains s || o.longs.contains s) = none) := by
  constructor
  · intro o h
    cases hf : ((getOptions e.1 e.2 false false).map (boptOf e)).find? (fun o => o.shorts.contains s || o.longs.contains s) with
    | none =>
      rw [List.find?_eq_none] at hf
      have := hf (boptOf e o) (List.mem_map.mpr ⟨o, (ownOptions_mem hat o).mpr h.1, rfl⟩)
      exact absurd ((boptOf_names ho hat h.1 s).mpr h) this
    | some b =>
      have h1 := List.find?_some hf
      obtain ⟨o', ho', rfl⟩ := List.mem_map.mp (List.mem_of_find?_eq_some hf)
      have h2 := (boptOf_names ho hat ((ownOptions_mem hat o').mp ho') s).mp h1
      rw [ho.single _ _ hat s o o' h h2]
  · intro h
    rw [List.find?_eq_none]
    intro b hb
    obtain ⟨o', ho', rfl⟩ := List.mem_map.mp hb
    intro h1
    exact h o' ((boptOf_names ho hat ((ownOptions_mem hat o').mp ho') s).mp h1)

theorem find_known {root : Cmd} (hc : CleanTreeM root) (hn : CleanNames root) (ho : CleanOptions root) {parents : List Cmd} {c : Cmd}
    (hat : At root parents c) (s : Str) :
    (∀ o, KnownOption parents c s o → ∃ e, findBOpt ((root.walk []).reverse.map blockOf) (subcommandPath parents c) s = some (boptOf e o)) ∧
    ((∀ o, ¬ KnownOption parents c s o) → findBOpt ((root.walk []).reverse.map blockOf) (subcommandPath parents c) s = none) := by
  rw [find_eq hc hn hat]
  have hatl := inheritedFrom_at hat
  constructor
  · rintro o ⟨l1, e, l2, h1, h2, h3⟩
    rw [h1] at hatl ⊢
    refine ⟨e, ?_⟩
    rw [List.findSome?_eq_some_iff]
    exact ⟨l1, e, l2, rfl, (find_own ho (hatl e (by simp)) s).1 o h2,
      fun e' he' => (find_own ho (hatl e' (by simp [he'])) s).2 (h3 e' he')⟩
  · intro h
    have hnone : ∀ e ∈ inheritedFrom parents c, ∀ o, ¬ NamesOption e.1 e.2 s o := by
      unfold KnownOption at h
      generalize inheritedFrom parents c = l at h
      intro e he
      induction l with
      | nil => simp at he
      | cons x l ih =>
        have hx : ∀ o, ¬ NamesOption x.1 x.2 s o := by
          intro o hnm
          exact h o ⟨[], x, l, rfl, hnm, by simp⟩
        simp only [List.mem_cons] at he
        rcases he with rfl | he
        · exact hx
        · refine ih ?_ he
          rintro o ⟨l1, y, l2, h1, h2, h3⟩
          refine h o ⟨x :: l1, y, l2, by rw [h1]; rfl, h2, ?_⟩
          intro e' he'
          simp only [List.mem_cons] at he'
          rcases he' with rfl | he'
          · exact hx
          · exact h3 e' he'
    rw [List.findSome?_eq_none_iff]
    intro e he
    exact (find_own ho (hatl e he) s).2 (hnone e he)

/-! ## Following subcommands -/

theorem switch_found {root : Cmd} (hc : CleanTreeM root) (hn : CleanNames root) {parents : List Cmd} {c : Cmd} (hat : At root parents c)
    (n : Nat) (w : Str) :
    switchCmd (switchCases root) (subcommandPath parents c) (n + 1) w =
      if subSlot parents c = some n then subcommandPath parents c ++ ':' :: switchName
        ((c.children.filter (fun d => !(otherNames c d).isEmpty)).map (fun d => (otherNames c d, d.data.prog))) w
      else subcommandPath parents c := by
  have hmem : ∀ sc ∈ switchCases root, ∃ e : List Cmd × Cmd, At root e.1 e.2 ∧ sc.path = subcommandPath e.1 e.2 ∧
      (∃ k, subSlot e.1 e.2 = some k ∧ sc.num = k + 1) ∧
      sc.names = (e.2.children.filter (fun d => !(otherNames e.2 d).isEmpty)).map (fun d => (otherNames e.2 d, d.data.prog)) := by
    intro sc hsc
    unfold switchCases at hsc
    obtain ⟨e, he, h1⟩ := List.mem_filterMap.mp hsc
    have hate := (mem_walk_iff root e.1 e.2).mp he
    cases hs : e.2.sub with
    | none => rw [hs] at h1; simp at h1
    | some k =>
      rw [hs] at h1
      simp only [Option.some.injEq] at h1
      refine ⟨e, hate, by rw [← h1], ⟨positionalIndex e.1 k, by simp [subSlot, hs], by rw [← h1]; rfl⟩, by rw [← h1]⟩
  unfold switchCmd
  by_cases hslot : subSlot parents c = some n
  · rw [if_pos hslot]
    cases hf : (switchCases root).find? (fun sc => decide (subcommandPath parents c ++ '|' :: natStr (n + 1) = sc.path ++ '|' :: natStr sc.num)) with
    | none =>
      exfalso
      rw [List.find?_eq_none] at hf
      cases hs : c.sub with
      | none => simp [subSlot, hs] at hslot
      | some k =>
        have hk : positionalIndex parents k = n := by simpa [subSlot, hs] using hslot
        have := hf ⟨subcommandPath parents c, positionalNum parents k,
          (c.children.filter (fun d => !(otherNames c d).isEmpty)).map (fun d => (otherNames c d, d.data.prog))⟩ (by
            unfold switchCases
            rw [List.mem_filterMap]
            exact ⟨(parents, c), (mem_walk_iff root parents c).mpr hat, by simp [hs]⟩)
        apply this
        simp [positionalNum, hk]
    | some sc =>
      obtain ⟨e, hate, h1, ⟨k, h2, h3⟩, h4⟩ := hmem sc (List.mem_of_find?_eq_some hf)
      have h5 := List.find?_some hf
      have h6 := bar_inj (of_decide_eq_true h5)
      rw [h1] at h6
      obtain ⟨h7, h8⟩ := path_inj hc hn hate hat h6.1.symm
      simp only
      rw [h4, h8]
  · rw [if_neg hslot]
    have : (switchCases root).find? (fun sc => decide (subcommandPath parents c ++ '|' :: natStr (n + 1) = sc.path ++ '|' :: natStr sc.num)) = none := by
      rw [List.find?_eq_none]
      intro sc hsc h5
      obtain ⟨e, hate, h1, ⟨k, h2, h3⟩, h4⟩ := hmem sc hsc
      have h6 := bar_inj (of_decide_eq_true h5)
      rw [h1] at h6
      obtain ⟨h7, h8⟩ := path_inj hc hn hate hat h6.1.symm
      rw [h7, h8] at h2
      rw [h2] at hslot
      apply hslot
      congr 1
      omega
    rw [this]

theorem switchName_eq {root : Cmd} (hc : CleanTreeM root) {parents : List Cmd} {c d : Cmd} (hat : At root parents c)
    (hd : d ∈ c.children) {w : Str} (hw : w ∈ variations c d) :
    switchName ((c.children.filter (fun d => !(otherNames c d).isEmpty)).map (fun d => (otherNames c d, d.data.prog))) w = d.data.prog := by
  unfold switchName
  cases hf : ((c.children.filter (fun d => !(otherNames c d).isEmpty)).map (fun d => (otherNames c d, d.data.prog))).find?
      (fun e => e.1.contains w) with
  | some x =>
    have h1 := List.find?_some hf
    obtain ⟨y, hy, rfl⟩ := List.mem_map.mp (List.mem_of_find?_eq_some hf)
    have hyc := (List.mem_filter.mp hy).1
    simp only [List.contains_eq_mem, decide_eq_true_eq] at h1
    have : w ∈ variations c y := List.mem_of_mem_erase h1
    rw [hc.distinct _ _ hat d hd y hyc w hw this]
  | none =>
    rw [List.find?_eq_none] at hf
    refine Classical.byContradiction (fun hne => ?_)
    have hm : w ∈ otherNames c d := (List.mem_erase_of_ne hne).mpr hw
    have hmem : d ∈ c.children.filter (fun d => !(otherNames c d).isEmpty) := by
      rw [List.mem_filter]
      refine ⟨hd, ?_⟩
      cases ho : otherNames c d with
      | nil => rw [ho] at hm; simp at hm
      | cons => rfl
    exact hf (otherNames c d, d.data.prog) (List.mem_map.mpr ⟨d, hmem, rfl⟩) (by simpa using hm)

theorem joinWith_snoc (sep x : Str) (xs : List Str) (y : Str) :
    joinWith sep (x :: xs ++ [y]) = joinWith sep (x :: xs) ++ sep ++ y := by
  induction xs generalizing x with
  | nil => rfl
  | cons x2 xs ih =>
    rw [List.cons_append, List.cons_append, joinWith_cons2, joinWith_cons2, ← List.cons_append, ih]
    simp

theorem path_child (parents : List Cmd) (c d : Cmd) :
    subcommandPath (parents ++ [c]) d = subcommandPath parents c ++ ':' :: d.data.prog := by
  unfold subcommandPath
  rw [List.drop_append_of_le_length (by simp), List.map_append, ← List.cons_append, List.map_cons, List.map_nil, joinWith_snoc]
  simp

/-- The parser's command is the command reached. -/
theorem cmdFrom_reached {root : Cmd} (hc : CleanTreeM root) (hn : CleanNames root) {ps : List Str} {parents : List Cmd} {c : Cmd}
    (hr : ReachedM root ps parents c) : cmdFrom (switchCases root) (S "root") 0 ps = subcommandPath parents c := by
  induction hr with
  | start => rfl
  | @word ps parents c w hr hne ih =>
    rw [cmdFrom_append, ih]
    simp only [cmdFrom, Nat.zero_add]
    rw [switch_found hc hn (reached_at hr), if_neg hne]
  | @sub ps parents c d w hr hs hd hw ih =>
    rw [cmdFrom_append, ih]
    simp only [cmdFrom, Nat.zero_add]
    rw [switch_found hc hn (reached_at hr), if_pos hs, switchName_eq hc (reached_at hr) hd hw, path_child]

theorem reached_prefix {root : Cmd} {ps : List Str} {parents : List Cmd} {c : Cmd} (hr : ReachedM root ps parents c) :
    ∀ pre, pre <+: ps → ∃ qs x, ReachedM root pre qs x := by
  induction hr with
  | start => intro pre hp; rw [List.prefix_nil] at hp; subst hp; exact ⟨_, _, ReachedM.start⟩
  | @word ps parents c w hr hne ih =>
    intro pre hp
    rw [List.prefix_concat_iff] at hp
    rcases hp with rfl | hp
    · exact ⟨_, _, ReachedM.word w hr hne⟩
    · exact ih pre hp
  | @sub ps parents c d w hr hs hd hw ih =>
    intro pre hp
    rw [List.prefix_concat_iff] at hp
    rcases hp with rfl | hp
    · exact ⟨_, _, ReachedM.sub hr hs hd hw⟩
    · exact ih pre hp

/-! ## Parts -/

theorem walk_all (c : Cmd) : ∀ ps, (c.walk ps).map (·.2) = c.all := by
  induction c using Cmd.ind with
  | h d s ch ih =>
    intro ps
    rw [Cmd.walk, Cmd.all]
    simp only [List.map_cons, List.cons.injEq, true_and]
    generalize ps ++ [Cmd.node d s ch] = qs
    induction ch with
    | nil => rfl
    | cons x xs ihx =>
      rw [Cmd.walkList, Cmd.allList, List.map_append, ih x (by simp)]
      rw [ihx (fun y hy => ih y (by simp [hy]))]

theorem at_all {root : Cmd} {parents : List Cmd} {c : Cmd} (h : At root parents c) : c ∈ root.all := by
  rw [← walk_all root []]
  exact List.mem_map.mpr ⟨(parents, c), (mem_walk_iff root parents c).mpr h, rfl⟩

theorem prefix_style {s l : Str} (h : s <+: l) (h3 : 3 ≤ s.length) : (IsLong l → IsLong s) ∧ (IsOld l → IsOld s) := by
  match s, h3 with
  | a :: b :: d :: s, _ =>
    obtain ⟨t, ht⟩ := h
    constructor
    · rintro ⟨c, cs, rfl⟩
      simp at ht
      obtain ⟨rfl, rfl, -⟩ := ht
      exact ⟨d, s, rfl⟩
    · rintro ⟨c, d', cs, rfl, hc⟩
      simp at ht
      obtain ⟨rfl, rfl, -⟩ := ht
      exact ⟨b, d, s, rfl, hc⟩

theorem qstyle_of {s : Str} : (IsShort s → qstyle s = .short) ∧ (IsLong s → qstyle s = .long) ∧ (IsOld s → qstyle s = .old) := by
  refine ⟨?_, ?_, ?_⟩
  · rintro ⟨c, rfl, hc⟩; exact qstyle_short hc
  · rintro ⟨c, cs, rfl⟩; exact qstyle_long _ _
  · rintro ⟨c, d, cs, rfl, hc⟩; exact qstyle_old _ _ hc

/-- The parts needed are compiled in. -/
theorem parts_ok {root : Cmd} (hc : CleanTreeM root) (hn : CleanNames root) (ho : CleanOptions root) {parents : List Cmd} {c : Cmd}
    (hat : At root parents c) :
    BPartsOk (bashParts root) (findBOpt ((root.walk []).reverse.map blockOf) (subcommandPath parents c)) := by
  have key : ∀ s b, findBOpt ((root.walk []).reverse.map blockOf) (subcommandPath parents c) s = some b →
      ∃ e : List Cmd × Cmd, At root e.1 e.2 ∧ ∃ o, NamesOption e.1 e.2 s o ∧ b = boptOf e o := by
    intro s b h
    rw [find_eq hc hn hat] at h
    obtain ⟨e, he, h1⟩ := List.exists_of_findSome?_eq_some h
    have hate := inheritedFrom_at hat e he
    obtain ⟨o, ho1, rfl⟩ := List.mem_map.mp (List.mem_of_find?_eq_some h1)
    have h2 := List.find?_some h1
    exact ⟨e, hate, o, (boptOf_names ho hate ((ownOptions_mem hate o).mp ho1) s).mp h2, rfl⟩
  have hopts : ∀ e : List Cmd × Cmd, At root e.1 e.2 → ∀ o ∈ e.2.data.options, o ∈ root.all.flatMap (fun c => c.data.options) := by
    intro e he o h
    exact List.mem_flatMap.mpr ⟨e.2, at_all he, h⟩
  have hsty : ∀ s b, findBOpt ((root.walk []).reverse.map blockOf) (subcommandPath parents c) s = some b →
      enabled (bashParts root).long (bashParts root).short (bashParts root).old (qstyle s) = true := by
    intro s b h
    obtain ⟨e, hate, o, hnm, rfl⟩ := key s b h
    have hv := ho.valid _ _ hate o hnm.1
    have hi := optStrings_iff hv
    have hmem := hopts e hate o hnm.1
    have hl : ∀ l ∈ o.strings, IsLong l → (bashParts root).long = true := by
      intro l hl hk
      simp only [bashParts, List.any_eq_true]
      refine ⟨o, hmem, ?_⟩
      have := (hi l).2.1.mpr ⟨hl, hk⟩
      cases h : o.longStrings with
      | nil => rw [h] at this; simp at this
      | cons => rfl
    have hol : ∀ l ∈ o.strings, IsOld l → (bashParts root).old = true := by
      intro l hl hk
      simp only [bashParts, List.any_eq_true]
      refine ⟨o, hmem, ?_⟩
      have := (hi l).2.2.mpr ⟨hl, hk⟩
      cases h : o.oldStrings with
      | nil => rw [h] at this; simp at this
      | cons => rfl
    have hs : ∀ l ∈ o.strings, IsShort l → (bashParts root).short = true := by
      intro l hl hk
      simp only [bashParts, List.any_eq_true]
      refine ⟨o, hmem, ?_⟩
      have := (hi l).1.mpr ⟨hl, hk⟩
      cases h : o.shortStrings with
      | nil => rw [h] at this; simp at this
      | cons => rfl
    rcases hnm.2 with h1 | ⟨-, h3, l, hlm, hk, hp, -⟩
    · rcases option_kinds (hv s h1).1 with hk | hk | hk
      · rw [qstyle_of.1 hk]; exact hs s h1 hk
      · rw [qstyle_of.2.1 hk]; exact hl s h1 hk
      · rw [qstyle_of.2.2 hk]; exact hol s h1 hk
    · rcases hk with hk | hk
      · rw [qstyle_of.2.1 ((prefix_style hp h3).1 hk)]; exact hl l hlm hk
      · rw [qstyle_of.2.2 ((prefix_style hp h3).2 hk)]; exact hol l hlm hk
  constructor
  · intro s k hk
    obtain ⟨b, hb, -⟩ := kindOf_some hk
    exact hsty s b hb
  · intro ch hk
    obtain ⟨b, hb, hb2⟩ := kindOf_some hk
    obtain ⟨e, hate, o, hnm, rfl⟩ := key _ b hb
    have hv := ho.valid _ _ hate o hnm.1
    have hmem := hopts e hate o hnm.1
    simp only [bashParts, List.any_eq_true]
    refine ⟨o, hmem, ?_⟩
    have hin : ['-', ch] ∈ o.strings := by
      rcases hnm.2 with h1 | ⟨-, h3, -⟩
      · exact h1
      · simp at h3
    have hsh : ['-', ch] ∈ o.shortStrings := by
      rcases option_kinds (hv _ hin).1 with hk | hk | hk
      · exact (optStrings_iff hv _).1.mpr ⟨hin, hk⟩
      · obtain ⟨_, _, h⟩ := hk; simp at h
      · obtain ⟨_, _, _, h, -⟩ := hk; simp at h
    have hopt : o.hasOptionalArg = true := by
      simp only [boptOf, Opt.kind] at hb2
      split at hb2
      · simp at hb2
      · split at hb2
        · assumption
        · simp at hb2
    rw [hopt, Bool.and_true]
    cases h : o.shortStrings with
    | nil => rw [h] at hsh; simp at hsh
    | cons => rfl

/-- Each flag letter belongs to one block. -/
theorem oneBlock {root : Cmd} (hc : CleanTreeM root) (hn : CleanNames root) (ho : CleanOptions root) {parents : List Cmd} {c : Cmd}
    (hat : At root parents c) (hf : FlagsOnce parents c) :
    OneBlock ((root.walk []).reverse.map blockOf) (subcommandPath parents c) := by
  intro ch l1 b l2 o hl hob hk hs b' hb' o' ho' hs'
  rw [active_eq hc hn hat, List.map_eq_append_iff] at hl
  obtain ⟨a1, a2, h1, rfl, h2⟩ := hl
  cases a2 with
  | nil => simp at h2
  | cons e a2 =>
    simp only [List.map_cons, List.cons.injEq] at h2
    obtain ⟨rfl, rfl⟩ := h2
    have hatl := inheritedFrom_at hat
    rw [h1] at hatl
    have hate := hatl e (by simp)
    obtain ⟨p, hp, rfl⟩ := List.mem_map.mp hob
    obtain ⟨e', he', rfl⟩ := List.mem_map.mp hb'
    have hate' := hatl e' (by simp [he'])
    obtain ⟨p', hp', rfl⟩ := List.mem_map.mp ho'
    have hpm := (ownOptions_mem hate p).mp hp
    have hpm' := (ownOptions_mem hate' p').mp hp'
    have h3 := (optStrings_iff (ho.valid _ _ hate p hpm) _).1.mp hs
    have h4 := (optStrings_iff (ho.valid _ _ hate' p' hpm') _).1.mp hs'
    refine hf a1 e a2 _ p h1 hpm ?_ h3.2 h3.1 e' he' p' hpm' h4.1
    cases hcm : p.complete with
    | none => rfl
    | some x => cases hoa : p.optionalArg <;> simp [boptOf, Opt.kind, Opt.hasRequiredArg, Opt.hasOptionalArg, hoa, hcm] at hk

end CC
