import Verif.Model.Abbrev
import Verif.Model.Range
import Verif.Props.Preprocessor
/-!
# C24, C25 (abbreviations and command words) and C31 (ranges)
-/

namespace CC

/-! ## C24 -/

theorem mem_downFrom (min n k : Nat) : k ∈ downFrom min n ↔ min ≤ k ∧ k ≤ n := by
  induction n with
  | zero =>
    simp only [downFrom]
    split <;> simp <;> omega
  | succ n ih =>
    simp only [downFrom]
    split
    · simp only [List.mem_cons, ih]; omega
    · simp; omega

theorem downFrom_desc (min n : Nat) : (downFrom min n).Pairwise (· > ·) := by
  induction n with
  | zero => simp only [downFrom]; split <;> simp
  | succ n ih =>
    simp only [downFrom]
    split
    · refine List.pairwise_cons.2 ⟨?_, ih⟩
      intro k hk
      rw [mem_downFrom] at hk; omega
    · simp

theorem startsWith_prefix (s p : Str) : startsWith s p = true ↔ p <+: s := by
  rw [startsWith_iff]
  constructor
  · rintro ⟨r, rfl⟩; exact ⟨r, rfl⟩
  · rintro ⟨r, rfl⟩; exact ⟨r, rfl⟩

theorem abbreviable_iff (words : List Str) (word : Str) (n : Nat) :
    abbreviable words word n = true ↔
      word.take n = word ∨ ∀ o ∈ words, o ≠ word → ¬ (word.take n <+: o) := by
  simp only [abbreviable, Bool.or_eq_true, Bool.not_eq_true', beq_iff_eq]
  rw [or_comm]
  apply or_congr Iff.rfl
  rw [← Bool.not_eq_true, List.any_eq_true]
  constructor
  · intro h o ho hne hp
    exact h ⟨o, by simp [ho, hne], (startsWith_prefix _ _).2 hp⟩
  · rintro h ⟨o, ho, hs⟩
    simp at ho
    exact h o ho.1 ho.2 ((startsWith_prefix _ _).1 hs)

theorem mem_abbreviationsOf (min : Nat) (words : List Str) (word a : Str) :
    a ∈ abbreviationsOf min words word ↔
      a <+: word ∧ min ≤ a.length ∧ (a = word ∨ ∀ o ∈ words, o ≠ word → ¬ (a <+: o)) := by
  simp only [abbreviationsOf, List.mem_map, List.mem_filter, mem_downFrom, abbreviable_iff]
  constructor
  · rintro ⟨n, ⟨⟨h1, h2⟩, h3⟩, rfl⟩
    refine ⟨List.take_prefix _ _, ?_, h3⟩
    rw [List.length_take]; omega
  · rintro ⟨hp, hl, h⟩
    have e : word.take a.length = a := by
      obtain ⟨r, rfl⟩ := hp; simp
    refine ⟨a.length, ⟨⟨hl, hp.length_le⟩, ?_⟩, e⟩
    rw [e]; exact h

/-- **C24**: the abbreviations of a word of the list are exactly the prefixes of at least the
minimum length that are the word itself or begin no other word. -/
theorem C24_exactly (min : Nat) (words : List Str) (word : Str) (hw : word ∈ words) :
    ∃ l, getAbbreviations min words word = .ok l ∧ ∀ a, a ∈ l ↔
      a <+: word ∧ min ≤ a.length ∧ (a = word ∨ ∀ o ∈ words, o ≠ word → ¬ (a <+: o)) :=
  ⟨_, by rw [getAbbreviations, if_pos hw], fun a => mem_abbreviationsOf min words word a⟩

/-- **C24**: they are listed longest first, without repetition. -/
theorem C24_longest_first (min : Nat) (words : List Str) (word : Str) (l : List Str)
    (h : getAbbreviations min words word = .ok l) :
    l.Pairwise (fun a b => b.length < a.length) := by
  unfold getAbbreviations at h
  split at h
  · cases h
    unfold abbreviationsOf
    rw [List.pairwise_map]
    refine List.Pairwise.imp_of_mem ?_ ((downFrom_desc min word.length).filter _)
    intro a b ha hb hab
    rw [List.mem_filter, mem_downFrom] at ha hb
    rw [List.length_take, List.length_take]
    omega
  · cases h

/-- **C24**: two different words of the list share no abbreviation; in particular an abbreviation
is never another full word (of sufficient length). -/
theorem C24_unshared (min : Nat) (words : List Str) (w1 w2 : Str) (l1 l2 : List Str)
    (h1 : getAbbreviations min words w1 = .ok l1) (h2 : getAbbreviations min words w2 = .ok l2)
    (hne : w1 ≠ w2) : ∀ a ∈ l1, a ∉ l2 := by
  unfold getAbbreviations at h1 h2
  split at h1
  · rename_i m1
    cases h1
    split at h2
    · rename_i m2
      cases h2
      intro a ha1 ha2
      rw [mem_abbreviationsOf] at ha1 ha2
      obtain ⟨p1, _, c1⟩ := ha1
      obtain ⟨p2, _, c2⟩ := ha2
      rcases c1 with rfl | c1
      · rcases c2 with rfl | c2
        · exact hne rfl
        · exact c2 _ m1 hne p1
      · exact c1 _ m2 (Ne.symm hne) p2
    · cases h2
  · cases h1

/-- **C24**: an abbreviation is never another word of the list. -/
theorem C24_not_another_word (min : Nat) (words : List Str) (w : Str) (l : List Str)
    (h : getAbbreviations min words w = .ok l) (a : Str) (ha : a ∈ l) (o : Str) (ho : o ∈ words)
    (hne : o ≠ w) : a ≠ o := by
  rintro rfl
  unfold getAbbreviations at h
  split at h
  · cases h
    rw [mem_abbreviationsOf] at ha
    rcases ha.2.2 with rfl | c
    · exact hne rfl
    · exact c a ho hne (List.prefix_refl a)
  · cases h

/-- **C24**: the recorded minimum length is the length of the shortest abbreviation, if any. -/
theorem C24_min_length (min : Nat) (words : List Str) (word : Str) (hlen : min ≤ word.length) :
    word.take (minLengthOf min words word) ∈ abbreviationsOf min words word ∧
    ∀ a ∈ abbreviationsOf min words word, minLengthOf min words word ≤ a.length := by
  have hmem : word.length ∈ (downFrom min word.length).filter (abbreviable words word) := by
    rw [List.mem_filter, mem_downFrom, abbreviable_iff]
    exact ⟨⟨hlen, Nat.le_refl _⟩, Or.inl (by simp)⟩
  have hd := ((downFrom_desc min word.length).filter (abbreviable words word))
  have hle : ∀ k ∈ (downFrom min word.length).filter (abbreviable words word), k ≤ word.length := by
    intro k hk; rw [List.mem_filter, mem_downFrom] at hk; exact hk.1.2
  unfold minLengthOf abbreviationsOf
  generalize (downFrom min word.length).filter (abbreviable words word) = ks at hmem hd hle
  cases hl : ks.getLast? with
  | none => rw [List.getLast?_eq_none_iff] at hl; subst hl; simp at hmem
  | some m =>
    have hm : m ∈ ks := List.mem_of_getLast? hl
    refine ⟨?_, ?_⟩
    · simp only [Option.getD_some, List.mem_map]; exact ⟨m, hm, rfl⟩
    · intro a ha
      rw [List.mem_map] at ha
      obtain ⟨k, hk, rfl⟩ := ha
      rw [List.length_take, Option.getD_some]
      have hk' := hle k hk
      rw [List.getLast?_eq_some_iff] at hl
      obtain ⟨ys, rfl⟩ := hl
      rw [List.pairwise_append] at hd
      rw [List.mem_append] at hk
      rcases hk with hk | hk
      · have := hd.2.2 k hk m (by simp); omega
      · simp at hk; omega

/-- **C24**: the option generator accepts exactly words that begin with a dash and have at least
three characters, and then every proper abbreviation has at least three characters. -/
theorem C24_option_generator (words : List Str) (word : Str) (l : List Str) :
    optionAbbreviations words word = .ok l ↔
      (∀ w ∈ words, ['-'] <+: w ∧ 3 ≤ w.length) ∧ getAbbreviations 3 words word = .ok l := by
  have key : ∀ w, optionWordOk w = true ↔ ['-'] <+: w ∧ 3 ≤ w.length := by
    intro w
    unfold optionWordOk
    simp only [Bool.if_true_left, Bool.or_eq_true, Bool.and_eq_true, decide_eq_true_eq,
      startsWith_prefix, Bool.if_false_right, Bool.and_true]
    constructor
    · rintro (⟨⟨r, rfl⟩, h⟩ | ⟨h1, h2⟩)
      · exact ⟨⟨'-' :: r, rfl⟩, by omega⟩
      · exact ⟨h1, by omega⟩
    · rintro ⟨h1, h2⟩; exact Or.inr ⟨h1, by omega⟩
  unfold optionAbbreviations
  by_cases h : words.all optionWordOk = true
  · rw [if_pos h]
    rw [List.all_eq_true] at h
    constructor
    · intro hg; exact ⟨fun w hw => (key w).1 (h w hw), hg⟩
    · exact fun hg => hg.2
  · rw [if_neg h]
    constructor
    · intro hg; cases hg
    · rintro ⟨hg, _⟩
      exact absurd (List.all_eq_true.2 (fun w hw => (key w).2 (hg w hw))) h

example : getAbbreviations 3 [S "--foo", S "--fuu", S "--bar"] (S "--foo") = .ok [S "--foo", S "--fo"] := rfl

/-! ## C25 -/

/-- All names of a subcommand. -/
def Sub.names (c : Sub) : List Str := c.prog :: c.aliases

/-- **C25**: false as stated when commands are abbreviated: all names are distinct, yet the word `i`
selects both `install` (as an abbreviation) and `remove` (as an alias). -/
theorem C25_false :
    ∃ (a b : Sub) (va vb : List Str),
      (∀ n ∈ a.names, n ∉ b.names) ∧ a.names.Nodup ∧ b.names.Nodup ∧
      commandVariations [a, b] a = .ok va ∧ commandVariations [a, b] b = .ok vb ∧
      S "i" ∈ va ∧ S "i" ∈ vb := by
  refine ⟨⟨S "install", [], true⟩, ⟨S "remove", [S "i"], true⟩, _, _, ?_, ?_, ?_, rfl, rfl, ?_, ?_⟩
  all_goals decide

/-- **C25**: siblings with distinct names share no command word, provided that (if commands may be
abbreviated) no alias of one is the beginning of the other's name. -/
theorem C25_disjoint_partial (siblings : List Sub) (a b : Sub) (va vb : List Str)
    (ha : a ∈ siblings) (hb : b ∈ siblings)
    (hd : ∀ n ∈ a.names, n ∉ b.names)
    (hab : a.abbreviate = true → ∀ n ∈ b.aliases, ¬ n <+: a.prog)
    (hba : b.abbreviate = true → ∀ n ∈ a.aliases, ¬ n <+: b.prog)
    (h1 : commandVariations siblings a = .ok va) (h2 : commandVariations siblings b = .ok vb) :
    ∀ w ∈ va, w ∉ vb := by
  have ma : a.prog ∈ siblings.map (·.prog) := List.mem_map.2 ⟨a, ha, rfl⟩
  have mb : b.prog ∈ siblings.map (·.prog) := List.mem_map.2 ⟨b, hb, rfl⟩
  have hne : a.prog ≠ b.prog := by
    intro h; exact hd a.prog (by simp [Sub.names]) (by rw [h]; simp [Sub.names])
  -- the words a command contributes besides its aliases
  have part : ∀ (c : Sub) (v : List Str), c.prog ∈ siblings.map (·.prog) →
      commandVariations siblings c = .ok v → ∀ w ∈ v, w ∈ c.aliases ∨
        (w = c.prog ∨ (c.abbreviate = true ∧ w <+: c.prog ∧
          ∀ o ∈ siblings.map (·.prog), o ≠ c.prog → ¬ (w <+: o))) := by
    intro c v hc h w hw
    unfold commandVariations at h
    split at h
    · rename_i hcab
      rw [getAbbreviations, if_pos hc] at h
      cases h
      rw [List.mem_append] at hw
      rcases hw with hw | hw
      · rw [mem_abbreviationsOf] at hw
        rcases hw.2.2 with h | h
        · exact Or.inr (Or.inl h)
        · exact Or.inr (Or.inr ⟨hcab, hw.1, h⟩)
      · exact Or.inl hw
    · cases h
      simp at hw
      rcases hw with h | h
      · exact Or.inr (Or.inl h)
      · exact Or.inl h
  intro w hwa hwb
  rcases part a va ma h1 w hwa with h | rfl | ⟨fa, pa, oa⟩
  · rcases part b vb mb h2 w hwb with h' | rfl | ⟨fb, pb, ob⟩
    · exact hd w (by simp [Sub.names, h]) (by simp [Sub.names, h'])
    · exact hd b.prog (by simp [Sub.names, h]) (by simp [Sub.names])
    · exact hba fb w h pb
  · rcases part b vb mb h2 _ hwb with h' | h' | ⟨fb, pb, ob⟩
    · exact hd a.prog (by simp [Sub.names]) (by simp [Sub.names, h'])
    · exact hne h'
    · exact ob _ ma hne (List.prefix_refl _)
  · rcases part b vb mb h2 w hwb with h' | rfl | ⟨fb, pb, ob⟩
    · exact hab fa w h' pa
    · exact oa _ mb (Ne.symm hne) (List.prefix_refl _)
    · exact oa _ mb (Ne.symm hne) pb

/-- **C25**: without abbreviation the property holds as stated. -/
theorem C25_no_abbreviation (siblings : List Sub) (a b : Sub) (va vb : List Str)
    (ha : a ∈ siblings) (hb : b ∈ siblings) (hd : ∀ n ∈ a.names, n ∉ b.names)
    (fa : a.abbreviate = false) (fb : b.abbreviate = false)
    (h1 : commandVariations siblings a = .ok va) (h2 : commandVariations siblings b = .ok vb) :
    ∀ w ∈ va, w ∉ vb :=
  C25_disjoint_partial siblings a b va vb ha hb hd (by simp [fa]) (by simp [fb]) h1 h2

/-- **C25**: the full name and every alias always select their command. -/
theorem C25_names_select (siblings : List Sub) (c : Sub) (hc : c ∈ siblings) (hp : c.prog ≠ []) :
    ∃ v, commandVariations siblings c = .ok v ∧ ∀ n ∈ c.names, n ∈ v := by
  have mc : c.prog ∈ siblings.map (·.prog) := List.mem_map.2 ⟨c, hc, rfl⟩
  unfold commandVariations
  split
  · rw [getAbbreviations, if_pos mc]
    refine ⟨_, rfl, ?_⟩
    intro n hn
    simp only [Sub.names, List.mem_cons] at hn
    rw [List.mem_append]
    rcases hn with rfl | hn
    · left
      rw [mem_abbreviationsOf]
      refine ⟨List.prefix_refl _, ?_, Or.inl rfl⟩
      cases h : c.prog with
      | nil => exact absurd h hp
      | cons => simp
    · exact Or.inr hn
  · exact ⟨_, rfl, by simp [Sub.names]⟩

example : commandVariations [⟨S "install", [S "in"], true⟩, ⟨S "info", [], true⟩] ⟨S "install", [S "in"], true⟩ =
    .ok [S "install", S "instal", S "insta", S "inst", S "ins", S "in"] := rfl

/-! ## C31 -/

/-- The `k`-th number of Python's `range(start, stop, step)`. -/
def pyRangeNth (start stop step : Int) (k : Nat) : Option Int :=
  if (step > 0 ∧ start + k * step < stop) ∨ (step < 0 ∧ start + k * step > stop)
  then some (start + k * step) else none

/-- The `k`-th number printed by `seq first increment last`. -/
def seqNth (r : RangeArgs) (k : Nat) : Option Int :=
  let step := r.step.getD 1
  if (step > 0 ∧ r.start + k * step ≤ r.stop) ∨ (step < 0 ∧ r.start + k * step ≥ r.stop)
  then some (r.start + k * step) else none

/-- The `k`-th word of the brace expansion `{first..last..increment}`: the shells count from the
first towards the last number, with the absolute value of the increment. -/
def braceNth (r : RangeArgs) (k : Nat) : Option Int :=
  let inc : Int := ((r.step.getD 1).natAbs : Int)
  if r.start ≤ r.stop then
    (if r.start + k * inc ≤ r.stop then some (r.start + k * inc) else none)
  else (if r.start - k * inc ≥ r.stop then some (r.start - k * inc) else none)

theorem rangeToComplete_eq (start stop step : Int) :
    (rangeToComplete start stop step).start = start ∧
    (rangeToComplete start stop step).stop = (if step > 0 then stop - 1 else stop + 1) ∧
    (rangeToComplete start stop step).step.getD 1 = step := by
  unfold rangeToComplete
  by_cases h : step = 1
  · simp [h]
  · simp [h]

/-- **C31**: `seq` with the emitted arguments prints exactly the numbers of the Python range, in
the same order (also for empty ranges). -/
theorem C31_seq (start stop step : Int) (k : Nat) :
    seqNth (rangeToComplete start stop step) k = pyRangeNth start stop step k := by
  obtain ⟨h1, h2, h3⟩ := rangeToComplete_eq start stop step
  unfold seqNth pyRangeNth
  simp only [h1, h2, h3]
  generalize start + (k : Int) * step = x
  by_cases hp : step > 0
  · have hn : ¬ step < 0 := by omega
    simp only [hp, hn, if_true, true_and, false_and, or_false]
    by_cases h : x < stop
    · rw [if_pos h, if_pos (by omega)]
    · rw [if_neg h, if_neg (by omega)]
  · simp only [hp, if_false, false_and, false_or]
    by_cases hn : step < 0
    · simp only [hn, true_and]
      by_cases h : x > stop
      · rw [if_pos h, if_pos (by omega)]
      · rw [if_neg h, if_neg (by omega)]
    · simp [hn]

/-- **C31**: for a non-empty Python range the brace expansion gives exactly its numbers, in order. -/
theorem C31_brace (start stop step : Int) (hne : pyRangeNth start stop step 0 ≠ none) (k : Nat) :
    braceNth (rangeToComplete start stop step) k = pyRangeNth start stop step k := by
  obtain ⟨h1, h2, h3⟩ := rangeToComplete_eq start stop step
  unfold braceNth
  simp only [h1, h2, h3]
  have hne' : (step > 0 ∧ start < stop) ∨ (step < 0 ∧ start > stop) := by
    unfold pyRangeNth at hne
    by_cases h : (step > 0 ∧ start + (0 : Nat) * step < stop) ∨ (step < 0 ∧ start + (0 : Nat) * step > stop)
    · simpa using h
    · rw [if_neg h] at hne; exact absurd rfl hne
  unfold pyRangeNth
  rcases hne' with ⟨hp, hlt⟩ | ⟨hn, hgt⟩
  · have e : (step.natAbs : Int) = step := Int.natAbs_of_nonneg (by omega)
    have hn : ¬ step < 0 := by omega
    simp only [hp, hn, if_true, true_and, false_and, or_false, e]
    rw [if_pos (by omega)]
    generalize start + (k : Int) * step = x
    by_cases h : x < stop
    · rw [if_pos h, if_pos (by omega)]
    · rw [if_neg h, if_neg (by omega)]
  · have e : (step.natAbs : Int) = -step := by omega
    have hp : ¬ step > 0 := by omega
    simp only [hp, hn, if_false, true_and, false_and, false_or, e]
    have em : start - (k : Int) * -step = start + (k : Int) * step := by
      rw [Int.mul_neg]; omega
    rw [em]
    by_cases hlt : start ≤ stop + 1
    · rw [if_pos hlt]
      -- a range of one number
      cases k with
      | zero =>
        rw [if_pos (by simp; omega), if_pos (by simp; omega)]
        simp
      | succ n =>
        have hk : ((n + 1 : Nat) : Int) * step ≤ step := by
          have h0 : (n : Int) * step ≤ 0 := Int.mul_nonpos_of_nonneg_of_nonpos (by omega) (by omega)
          have : ((n + 1 : Nat) : Int) * step = (n : Int) * step + step := by
            rw [Int.natCast_succ, Int.add_mul]; omega
          omega
        rw [Int.mul_neg]
        generalize ((n + 1 : Nat) : Int) * step = x at hk
        rw [if_neg (by omega), if_neg (by omega)]
    · rw [if_neg hlt]
      generalize start + (k : Int) * step = x
      by_cases h : x > stop
      · rw [if_pos h, if_pos (by omega)]
      · rw [if_neg h, if_neg (by omega)]

/-- **C31**: the emitted arguments pass the validation of range completers exactly if the Python
range is not empty. -/
theorem C31_validated (start stop step : Int) :
    checkRange (rangeToComplete start stop step) = true ↔ pyRangeNth start stop step 0 ≠ none := by
  obtain ⟨h1, h2, h3⟩ := rangeToComplete_eq start stop step
  have e : pyRangeNth start stop step 0 ≠ none ↔
      (step > 0 ∧ start < stop) ∨ (step < 0 ∧ start > stop) := by
    unfold pyRangeNth
    simp only [Int.natCast_zero, Int.zero_mul, Int.add_zero]
    by_cases h : (step > 0 ∧ start < stop) ∨ (step < 0 ∧ start > stop)
    · rw [if_pos h]; simp [h]
    · rw [if_neg h]; simp [h]
  rw [e]
  unfold checkRange
  simp only [h1, h2, h3]
  by_cases hp : step > 0
  · rw [if_pos hp, if_neg (by omega)]
    by_cases hl : start < stop
    · rw [if_neg (by omega), if_neg (by omega)]; simp [hp, hl]
    · rw [if_pos ⟨hp, by omega⟩]; simp; omega
  · rw [if_neg hp]
    by_cases hz : step = 0
    · rw [if_pos hz]; simp; omega
    · rw [if_neg hz, if_neg (by omega)]
      by_cases hl : start > stop
      · rw [if_neg (by omega)]; simp; omega
      · rw [if_pos (by omega)]; simp; omega

/-- **C31**: for an empty Python range the brace expansion is wrong: it offers 5 and 4. -/
theorem C31_empty_range_false :
    pyRangeNth 5 5 1 0 = none ∧ braceNth (rangeToComplete 5 5 1) 0 = some 5 ∧
    braceNth (rangeToComplete 5 5 1) 1 = some 4 := by decide

example : pyRangeNth 10 0 (-3) 3 = some 1 ∧ pyRangeNth 10 0 (-3) 4 = none := by decide

end CC
