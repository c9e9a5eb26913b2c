import Verif.Model.BashParser
import Verif.Props.ZshQuery
import Verif.Spec.BashSpec
import Verif.Props.Preprocessor
/-!
# Lemmas about the Bash parsers: one word, then the loop
-/

namespace CC

/-- What is recorded for an option of the specification. -/
def bashRecord (find : Str → Option BOpt) (o : Str × Option Str) : Str × Str :=
  (((find o.1).map BOpt.var).getD [], o.2.getD optIsSet)

/-- The kinds of the options found. -/
def kindOf (find : Str → Option BOpt) (s : Str) : Option ArgKind := (find s).map BOpt.kind

theorem kindOf_some {find : Str → Option BOpt} {s : Str} {k : ArgKind} (h : kindOf find s = some k) :
    ∃ o, find s = some o ∧ o.kind = k := by
  unfold kindOf at h
  cases hf : find s with
  | none => rw [hf] at h; simp at h
  | some o => rw [hf] at h; exact ⟨o, rfl, by simpa using h⟩

/-- A branch for options that does what the documentation says, word by word. -/
structure BranchOk (option : Str → Str → BEffect) (find : Str → Option BOpt) : Prop where
  word : ∀ n next o, (LongName n ∨ OldName n) → find n = some o → option n next = v2Word o next
  eq : ∀ n v next o, (LongName n ∨ OldName n) → find n = some o → o.kind ≠ .flag →
    option (n ++ '=' :: v) next = { log := [(o.var, v)] }
  flags : ∀ c cs next, c ≠ '-' → FlagsOk (kindOf find) (c :: cs) → ClusterOk (kindOf find) ('-' :: c :: cs) →
    option ('-' :: c :: cs) next = { log := (flagOptions (c :: cs)).map (bashRecord find) }
  last : ∀ cs c v next o, (cs ++ [c]).head? ≠ some '-' → FlagsOk (kindOf find) cs → find ['-', c] = some o →
    o.kind ≠ .flag → ClusterOk (kindOf find) ('-' :: (cs ++ c :: v)) →
    option ('-' :: (cs ++ c :: v)) next =
      if v ≠ [] then { log := (flagOptions cs).map (bashRecord find) ++ [(o.var, v)] }
      else ⟨(flagOptions cs).map (bashRecord find) ++ (v2Word o next).log, (v2Word o next).skip⟩

/-- Conditions on the generated cases. -/
structure BlocksOk (blocks : List Block) : Prop where
  shorts : ∀ b ∈ blocks, ∀ o ∈ b.opts, ∀ s ∈ o.shorts, ∃ c, s = ['-', c] ∧ c ≠ '-'
  longs : ∀ b ∈ blocks, ∀ o ∈ b.opts, ∀ s ∈ o.longs, s.length ≥ 3 ∧ '=' ∉ s

theorem findBOpt_mem {blocks : List Block} {cmd s : Str} {o : BOpt} (h : findBOpt blocks cmd s = some o) :
    ∃ b ∈ blocks, b.active cmd = true ∧ o ∈ b.opts ∧ (s ∈ o.shorts ∨ s ∈ o.longs) := by
  unfold findBOpt at h
  rw [List.findSome?_eq_some_iff] at h
  obtain ⟨l1, b, l2, h1, h2, -⟩ := h
  have hb : b ∈ blocks.filter (Block.active cmd) := by rw [h1]; simp
  rw [List.mem_filter] at hb
  have h3 := List.find?_some h2
  refine ⟨b, hb.1, hb.2, List.mem_of_find?_eq_some h2, ?_⟩
  simpa using h3

theorem findBOpt_dashes {blocks : List Block} (h : BlocksOk blocks) (cmd : Str) : findBOpt blocks cmd ['-', '-'] = none := by
  cases hf : findBOpt blocks cmd ['-', '-'] with
  | none => rfl
  | some o =>
    obtain ⟨b, hb, -, ho, hs | hs⟩ := findBOpt_mem hf
    · obtain ⟨c, h1, h2⟩ := h.shorts b hb o ho _ hs
      simp at h1; exact absurd h1.symm h2
    · have := (h.longs b hb o ho _ hs).1
      simp at this

theorem noDashes {blocks : List Block} (h : BlocksOk blocks) (cmd : Str) : NoDashes (kindOf (findBOpt blocks cmd)) := by
  simp [NoDashes, kindOf, findBOpt_dashes h]

theorem name_length {n : Str} (h : LongName n ∨ OldName n) : n.length ≥ 3 ∧ '=' ∉ n := by
  rcases h with ⟨⟨c, cs, rfl⟩, h⟩ | ⟨⟨c, d, cs, rfl, hc⟩, h⟩ <;> exact ⟨by simp, h⟩

/-! ## Version 2 -/

/-- The parts needed for the options are compiled in. -/
def BPartsOk (p : Parts) (find : Str → Option BOpt) : Prop :=
  PartsOk p.long p.short p.old (kindOf find) ∧
  ∀ c, kindOf find ['-', c] = some .optional → p.shortOptionals = true

theorem v2Cluster_flags (find : Str → Option BOpt) (so : Bool) (next : Str) (cs rest : Str)
    (hf : FlagsOk (kindOf find) cs) :
    v2Cluster find so next (cs ++ rest) =
      ⟨(flagOptions cs).map (bashRecord find) ++ (v2Cluster find so next rest).log,
        (v2Cluster find so next rest).skip⟩ := by
  induction cs with
  | nil => simp [flagOptions]
  | cons c cs ih =>
    have ih := ih (fun d hd => hf d (by simp [hd]))
    obtain ⟨o, h1, h2⟩ := kindOf_some (hf c (by simp))
    simp only [List.cons_append, v2Cluster, h1, h2]
    rw [ih]
    simp [flagOptions, bashRecord, h1]

/-- The old-style part does not take a cluster of more than one letter. -/
theorem v2Old_cluster {find : Str → Option BOpt} {w : Str} (next : Str) (hw : ClusterOk (kindOf find) w) :
    v2Old find w next = if '=' ∉ w ∧ w.length = 2 then (find w).map (fun o => v2Word o next)
      else if '=' ∈ w then (find w).map (fun o => v2Word o next) else none := by
  unfold v2Old
  by_cases heq : '=' ∈ w
  · obtain ⟨p, r, rfl, hp⟩ := split_first_eq heq
    have hk := hw.1 p r rfl hp
    have : find p = none := by
      cases h : find p with
      | none => rfl
      | some o => simp [kindOf, h] at hk
    rw [if_pos (by simp), beforeEq_append hp, this, if_neg (fun h => h.1 heq), if_pos heq]
  · rw [if_neg (by simpa using heq)]
    by_cases hl : w.length = 2
    · rw [if_pos ⟨heq, hl⟩]
    · have hk := hw.2 heq hl
      have : find w = none := by
        cases h : find w with
        | none => rfl
        | some o => simp [kindOf, h] at hk
      rw [if_neg (fun h => hl h.2), if_neg heq, this]
      rfl

theorem v2_ok {blocks : List Block} (hb : BlocksOk blocks) (p : Parts) (cmd : Str)
    (hp : BPartsOk p (findBOpt blocks cmd)) : BranchOk (v2Option p blocks cmd) (findBOpt blocks cmd) := by
  generalize hfind : findBOpt blocks cmd = find at hp
  have hlen : ∀ s o, find s = some o → s.length = 2 ∨ '=' ∉ s := by
    intro s o h
    rw [← hfind] at h
    obtain ⟨b, hb1, -, ho, hs | hs⟩ := findBOpt_mem h
    · obtain ⟨c, h1, -⟩ := hb.shorts b hb1 o ho s hs
      left; rw [h1]; rfl
    · exact Or.inr (hb.longs b hb1 o ho s hs).2
  have hkd : ∀ s o, find s = some o → kindOf find s = some o.kind := by
    intro s o h; simp [kindOf, h]
  have hword : ∀ n next o, (LongName n ∨ OldName n) → find n = some o → v2Option p blocks cmd n next = v2Word o next := by
    intro n next o hn hf
    have hl := hp.1 _ _ (hkd _ _ hf)
    rcases hn with ⟨⟨c, cs, rfl⟩, heq⟩ | ⟨⟨c, d, cs, rfl, hc⟩, heq⟩
    · rw [qstyle_long] at hl
      have h1 : startsWith ('-' :: '-' :: c :: cs) ['-', '-'] = true := by simp [startsWith]
      have h2 : ('-' :: '-' :: c :: cs).contains '=' = false := by simpa using heq
      simp only [enabled] at hl
      unfold v2Option
      simp only [hfind, h1, h2, hl, hf, if_true, Bool.false_eq_true, if_false]
    · rw [qstyle_old _ _ hc] at hl
      have h1 : startsWith ('-' :: c :: d :: cs) ['-', '-'] = false := by simp [startsWith, hc]
      have h2 : ('-' :: c :: d :: cs).contains '=' = false := by simpa using heq
      simp only [enabled] at hl
      unfold v2Option
      simp only [hfind, h1, hl, v2Old, h2, hf, if_true, Bool.false_eq_true, if_false, Option.map_some]
  -- a cluster word
  have hcl : ∀ c cs next, c ≠ '-' → p.short = true → ClusterOk (kindOf find) ('-' :: c :: cs) →
      v2Option p blocks cmd ('-' :: c :: cs) next =
        match (if p.old && cs.isEmpty then (find ['-', c]).map (fun o => v2Word o next) else none) with
        | some e => e
        | none => v2Cluster find p.shortOptionals next (c :: cs) := by
    intro c cs next hc hs hw
    have h1 : startsWith ('-' :: c :: cs) ['-', '-'] = false := by simp [startsWith, hc]
    have h2 : v2Old find ('-' :: c :: cs) next =
        if cs.isEmpty then (find ['-', c]).map (fun o => v2Word o next) else none := by
      rw [v2Old_cluster next hw]
      cases cs with
      | nil =>
        by_cases hq : '=' ∈ ['-', c]
        · rw [if_neg (fun h => h.1 hq), if_pos hq]; rfl
        · rw [if_pos ⟨hq, rfl⟩]; rfl
      | cons d cs =>
        rw [if_neg (by simp)]
        split
        · rename_i hq
          cases h : find ('-' :: c :: d :: cs) with
          | none => rfl
          | some o => rcases hlen _ _ h with h | h
                      · simp at h
                      · exact absurd hq h
        · rfl
    unfold v2Option
    simp only [hfind, h1, hs, if_true, Bool.false_eq_true, if_false, List.tail_cons, h2]
    cases p.old <;> cases cs <;> rfl
  refine ⟨hword, ?_, ?_, ?_⟩
  · intro n v next o hn hf hk
    have hl := hp.1 _ _ (hkd _ _ hf)
    have hq : '=' ∉ n := (name_length hn).2
    have hbq := beforeEq_append hq v
    have hfq := afterEq_append hq v
    have h2 : (n ++ '=' :: v).contains '=' = true := by simp
    rcases hn with ⟨⟨c, cs, rfl⟩, heq⟩ | ⟨⟨c, d, cs, rfl, hc⟩, heq⟩
    · rw [qstyle_long] at hl
      have h1 : startsWith ('-' :: '-' :: c :: cs ++ '=' :: v) ['-', '-'] = true := by simp [startsWith]
      simp only [enabled] at hl
      unfold v2Option
      simp only [hfind, h1, h2, hl, hbq, hfq, hf, if_true]
    · rw [qstyle_old _ _ hc] at hl
      have h1 : startsWith ('-' :: c :: d :: cs ++ '=' :: v) ['-', '-'] = false := by simp [startsWith, hc]
      simp only [enabled] at hl
      unfold v2Option
      simp only [hfind, h1, hl, v2Old, h2, hbq, hfq, hf, if_true, Bool.false_eq_true, if_false]
  · intro c cs next hc hf hw
    obtain ⟨o, h1, h2⟩ := kindOf_some (hf c (by simp))
    have hs : p.short = true := by
      have := hp.1 _ _ (hf c (by simp)); rw [qstyle_short hc] at this; exact this
    rw [hcl c cs next hc hs hw]
    have h3 := v2Cluster_flags find p.shortOptionals next (c :: cs) [] hf
    rw [List.append_nil] at h3
    by_cases h4 : (p.old && cs.isEmpty) = true
    · rw [if_pos h4, h1]
      have : cs = [] := by simp at h4; exact h4.2
      subst this
      simp [v2Word, h2, flagOptions, bashRecord, h1]
    · rw [if_neg h4, h3]
      simp [v2Cluster]
  · intro cs c v next o hh hf h1 hk hw
    have hc : c ≠ '-' := by
      intro e; subst e
      rw [← hfind, findBOpt_dashes hb] at h1; simp at h1
    have hs : p.short = true := by
      have := hp.1 _ _ (hkd _ _ h1); rw [qstyle_short hc] at this; exact this
    obtain ⟨d, ds, h2, h3⟩ := cluster_head hh v
    have h4 := v2Cluster_flags find p.shortOptionals next cs (c :: v) hf
    have h5 : v2Cluster find p.shortOptionals next (c :: v) =
        if v ≠ [] then { log := [(o.var, v)] } else v2Word o next := by
      rw [v2Cluster, h1]
      cases hk2 : o.kind with
      | flag => exact absurd hk2 hk
      | required => by_cases hv : v = [] <;> simp [hv, v2Word, hk2]
      | optional =>
        have := hp.2 c (by rw [hkd _ _ h1, hk2])
        by_cases hv : v = [] <;> simp [hv, v2Word, hk2, this]
    rw [h2] at hw h4 ⊢
    rw [hcl d ds next h3 hs hw]
    by_cases h6 : (p.old && ds.isEmpty) = true
    · have : ds = [] := by simp at h6; exact h6.2
      subst this
      have h7 : cs = [] ∧ c = d ∧ v = [] := by
        cases cs with
        | nil => simp at h2; simp [h2]
        | cons x xs => simp at h2
      obtain ⟨rfl, rfl, rfl⟩ := h7
      rw [if_pos h6, h1]
      simp [flagOptions]
    · rw [if_neg h6, h4, h5]
      by_cases hv : v = []
      · rw [if_neg (by simpa using hv), if_neg (by simpa using hv)]
      · simp [hv]

/-! ## Version 1 -/

/-- A flag letter belongs to only one of the active blocks. -/
def OneBlock (blocks : List Block) (cmd : Str) : Prop :=
  ∀ c l1 b l2 o, blocks.filter (Block.active cmd) = l1 ++ b :: l2 → o ∈ b.opts → o.kind = .flag → ['-', c] ∈ o.shorts →
    ∀ b' ∈ l2, ∀ o' ∈ b'.opts, ['-', c] ∉ o'.shorts

theorem findSome_congr {α β} {f g : α → Option β} {l : List α} (h : ∀ x ∈ l, f x = g x) : l.findSome? f = l.findSome? g := by
  induction l with
  | nil => rfl
  | cons x xs ih =>
    simp only [List.findSome?_cons]
    rw [h x (by simp), ih (fun y hy => h y (by simp [hy]))]

theorem find_map_findSome {α β} (p : α → Bool) (f : α → β) (l : List α) :
    l.findSome? (fun x => if p x then some (f x) else none) = (l.find? p).map f := by
  induction l with
  | nil => rfl
  | cons x xs ih =>
    simp only [List.findSome?_cons, List.find?_cons]
    cases h : p x <;> simp [ih]

theorem findSome_map {α β γ} (g : α → Option β) (f : β → γ) (l : List α) :
    l.findSome? (fun x => (g x).map f) = (l.findSome? g).map f := by
  induction l with
  | nil => rfl
  | cons x xs ih =>
    simp only [List.findSome?_cons]
    cases h : g x <;> simp [ih]

theorem v1LongCase_word {n : Str} (hq : '=' ∉ n) (next : Str) (o : BOpt) :
    v1LongCase n next o = if o.longs.contains n then some (v2Word o next) else none := by
  unfold v1LongCase
  by_cases h : o.longs.contains n = true
  · rw [if_pos h, if_pos h]
    cases hk : o.kind <;> simp [v2Word, hk]
  · rw [if_neg h, if_neg h]
    have : o.longs.any (fun l => startsWith n (l ++ ['='])) = false := by
      simp only [List.any_eq_false]
      intro l _ hs
      obtain ⟨t, ht⟩ := (startsWith_iff _ _).mp hs
      exact hq (by rw [ht]; simp)
    simp [this]

/-- A word without `=` that is too long for a short option, in the long part. -/
theorem v1Long_word {blocks : List Block} (hb : BlocksOk blocks) (cmd : Str) {n : Str} (hl : n.length ≠ 2) (hq : '=' ∉ n)
    (next : Str) : v1Long (blocks.filter (Block.active cmd)) n next =
      (findBOpt blocks cmd n).map (fun o => v2Word o next) := by
  unfold v1Long findBOpt
  rw [← findSome_map]
  apply findSome_congr
  intro b hbm
  rw [← find_map_findSome]
  apply findSome_congr
  intro o ho
  rw [v1LongCase_word hq]
  have : o.shorts.contains n = false := by
    simp only [List.contains_eq_mem, decide_eq_false_iff_not]
    intro h
    obtain ⟨c, h1, -⟩ := hb.shorts b (List.mem_filter.mp hbm).1 o ho n h
    rw [h1] at hl; exact hl rfl
  rw [this, Bool.false_or]

theorem append_eq_inj {a b v w : Str} (ha : '=' ∉ a) (hb : '=' ∉ b) (h : a ++ '=' :: v = b ++ '=' :: w) : a = b ∧ v = w := by
  have h1 := beforeEq_append ha v
  have h2 := afterEq_append ha v
  rw [h] at h1 h2
  rw [beforeEq_append hb w] at h1
  rw [afterEq_append hb w] at h2
  exact ⟨h1.symm, h2.symm⟩

theorem v1LongCase_eq {o : BOpt} (ho : ∀ s ∈ o.longs, '=' ∉ s) {n : Str} (hq : '=' ∉ n) (v next : Str) :
    v1LongCase (n ++ '=' :: v) next o =
      if decide (o.kind ≠ .flag) && o.longs.contains n then some { log := [(o.var, v)] } else none := by
  unfold v1LongCase
  have h1 : o.longs.contains (n ++ '=' :: v) = false := by
    simp only [List.contains_eq_mem, decide_eq_false_iff_not]
    intro h
    exact ho _ h (by simp)
  have h2 : o.longs.any (fun l => startsWith (n ++ '=' :: v) (l ++ ['='])) = o.longs.contains n := by
    rw [Bool.eq_iff_iff]
    simp only [List.any_eq_true, List.contains_eq_mem, decide_eq_true_eq, startsWith_iff]
    constructor
    · rintro ⟨l, hl, t, ht⟩
      rw [List.append_assoc] at ht
      rw [(append_eq_inj hq (ho l hl) ht).1]; exact hl
    · intro h
      exact ⟨n, h, v, by simp⟩
  rw [h1, h2, afterEq_append hq]
  simp

theorem v1Long_eq_some {blocks : List Block} (hb : BlocksOk blocks) (cmd : Str) {n : Str} (hl : n.length ≠ 2) (hq : '=' ∉ n)
    (v next : Str) {o : BOpt} (hf : findBOpt blocks cmd n = some o) (hk : o.kind ≠ .flag) :
    v1Long (blocks.filter (Block.active cmd)) (n ++ '=' :: v) next = some { log := [(o.var, v)] } := by
  have hs : ∀ b ∈ blocks.filter (Block.active cmd), ∀ o ∈ b.opts, o.shorts.contains n = false := by
    intro b hbm o ho
    simp only [List.contains_eq_mem, decide_eq_false_iff_not]
    intro h
    obtain ⟨c, h1, -⟩ := hb.shorts b (List.mem_filter.mp hbm).1 o ho n h
    rw [h1] at hl; exact hl rfl
  have hlq : ∀ b ∈ blocks.filter (Block.active cmd), ∀ o ∈ b.opts, ∀ s ∈ o.longs, '=' ∉ s :=
    fun b hbm o ho s hs => (hb.longs b (List.mem_filter.mp hbm).1 o ho s hs).2
  unfold findBOpt at hf
  unfold v1Long
  rw [List.findSome?_eq_some_iff] at hf ⊢
  obtain ⟨l1, b, l2, h1, h2, h3⟩ := hf
  have hin : ∀ x ∈ l1 ++ b :: l2, x ∈ blocks.filter (Block.active cmd) := by intro x hx; rw [h1]; exact hx
  refine ⟨l1, b, l2, h1, ?_, ?_⟩
  · rw [List.find?_eq_some_iff_append] at h2
    obtain ⟨hp, as, bs, h4, h5⟩ := h2
    rw [List.findSome?_eq_some_iff]
    refine ⟨as, o, bs, h4, ?_, ?_⟩
    · rw [v1LongCase_eq (hlq b (hin b (by simp)) o (by rw [h4]; simp)) hq]
      have := hs b (hin b (by simp)) o (by rw [h4]; simp)
      rw [this] at hp
      simp only [Bool.false_or] at hp
      have hp' : n ∈ o.longs := by simpa using hp
      simp [hk, hp']
    · intro a ha
      rw [v1LongCase_eq (hlq b (hin b (by simp)) a (by rw [h4]; simp [ha])) hq]
      have := h5 a ha
      rw [hs b (hin b (by simp)) a (by rw [h4]; simp [ha])] at this
      simp only [Bool.false_or, Bool.not_eq_true'] at this
      rw [this]; simp
  · intro b' hb'
    have h6 := h3 b' hb'
    rw [List.find?_eq_none] at h6
    rw [List.findSome?_eq_none_iff]
    intro a ha
    rw [v1LongCase_eq (hlq b' (hin b' (by simp [hb'])) a ha) hq]
    have h7 := h6 a ha
    rw [hs b' (hin b' (by simp [hb'])) a ha] at h7
    simp only [Bool.false_or] at h7
    simp [h7]
    intro _
    simpa using h7

/-- A cluster is not taken by the long part. -/
theorem v1Long_cluster {blocks : List Block} (hb : BlocksOk blocks) (cmd : Str) {w : Str} (next : Str)
    (hw : ClusterOk (kindOf (findBOpt blocks cmd)) w) : v1Long (blocks.filter (Block.active cmd)) w next = none := by
  have hnone : ∀ s, kindOf (findBOpt blocks cmd) s = none → ∀ b ∈ blocks.filter (Block.active cmd), ∀ o ∈ b.opts,
      s ∉ o.longs := by
    intro s hs b hbm o ho hm
    have : findBOpt blocks cmd s = none := by
      cases h : findBOpt blocks cmd s with
      | none => rfl
      | some o => simp [kindOf, h] at hs
    unfold findBOpt at this
    rw [List.findSome?_eq_none_iff] at this
    have := this b hbm
    rw [List.find?_eq_none] at this
    exact this o ho (by simp [hm])
  unfold v1Long
  rw [List.findSome?_eq_none_iff]
  intro b hbm
  rw [List.findSome?_eq_none_iff]
  intro o ho
  have hlo : ∀ s ∈ o.longs, s.length ≥ 3 ∧ '=' ∉ s := hb.longs b (List.mem_filter.mp hbm).1 o ho
  by_cases hq : '=' ∈ w
  · obtain ⟨p, r, rfl, hp⟩ := split_first_eq hq
    rw [v1LongCase_eq (fun s hs => (hlo s hs).2) hp]
    have := hnone p (hw.1 p r rfl hp) b hbm o ho
    simp [this]
  · rw [v1LongCase_word hq]
    have : w ∉ o.longs := by
      intro hm
      by_cases hl : w.length = 2
      · have := (hlo w hm).1; omega
      · exact hnone w (hw.2 hq hl) b hbm o ho hm
    simp [this]

theorem v1Letter_none {c : Char} (trailing next : Str) {bs : List Block}
    (h : ∀ b ∈ bs, ∀ o ∈ b.opts, ['-', c] ∉ o.shorts) : v1Letter c trailing next bs = ({}, false) := by
  induction bs with
  | nil => rfl
  | cons b bs ih =>
    have : b.opts.find? (fun o => o.shorts.contains ['-', c]) = none := by
      rw [List.find?_eq_none]
      intro o ho
      simpa using h b (by simp) o ho
    rw [v1Letter, this]
    exact ih (fun b' hb' => h b' (by simp [hb']))

/-- The first block with the letter decides. -/
theorem v1Letter_split {c : Char} (trailing next : Str) {l1 l2 : List Block} {b : Block}
    (h : ∀ b' ∈ l1, ∀ o ∈ b'.opts, ['-', c] ∉ o.shorts) :
    v1Letter c trailing next (l1 ++ b :: l2) = v1Letter c trailing next (b :: l2) := by
  induction l1 with
  | nil => rfl
  | cons b' l1 ih =>
    have : b'.opts.find? (fun o => o.shorts.contains ['-', c]) = none := by
      rw [List.find?_eq_none]
      intro o ho
      simpa using h b' (by simp) o ho
    rw [List.cons_append, v1Letter, this]
    exact ih (fun x hx => h x (by simp [hx]))

/-- What the letter does, in terms of `findBOpt`. -/
theorem v1Letter_find {blocks : List Block} (hb : BlocksOk blocks) {cmd : Str} (h1 : OneBlock blocks cmd) {c : Char}
    (trailing next : Str) {o : BOpt} (hf : findBOpt blocks cmd ['-', c] = some o) :
    v1Letter c trailing next (blocks.filter (Block.active cmd)) =
      match o.kind with
      | .flag => (⟨[(o.var, optIsSet)], false⟩, false)
      | .optional => (⟨[(o.var, if trailing ≠ [] then trailing else optIsSet)], false⟩, true)
      | .required => if trailing ≠ [] then (⟨[(o.var, trailing)], false⟩, true) else (⟨[(o.var, next)], true⟩, true) := by
  have hl : ∀ b ∈ blocks.filter (Block.active cmd), ∀ o ∈ b.opts, o.longs.contains ['-', c] = false := by
    intro b hbm o ho
    simp only [List.contains_eq_mem, decide_eq_false_iff_not]
    intro h
    have := (hb.longs b (List.mem_filter.mp hbm).1 o ho _ h).1
    simp at this
  unfold findBOpt at hf
  rw [List.findSome?_eq_some_iff] at hf
  obtain ⟨l1, b, l2, h2, h3, h4⟩ := hf
  have hin : ∀ x ∈ l1 ++ b :: l2, x ∈ blocks.filter (Block.active cmd) := by intro x hx; rw [h2]; exact hx
  rw [h2, v1Letter_split]
  · have h5 : b.opts.find? (fun o => o.shorts.contains ['-', c]) = some o := by
      rw [← h3]
      rw [List.find?_eq_some_iff_append] at h3
      obtain ⟨hp, as, bs, h6, h7⟩ := h3
      have e : ∀ x ∈ b.opts, (x.shorts.contains ['-', c] || x.longs.contains ['-', c]) = x.shorts.contains ['-', c] := by
        intro x hx; rw [hl b (hin b (by simp)) x hx, Bool.or_false]
      have : ∀ l : List BOpt, (∀ x ∈ l, (x.shorts.contains ['-', c] || x.longs.contains ['-', c]) = x.shorts.contains ['-', c]) →
          l.find? (fun o => o.shorts.contains ['-', c]) =
          l.find? (fun o => o.shorts.contains ['-', c] || o.longs.contains ['-', c]) := by
        intro l
        induction l with
        | nil => intro _; rfl
        | cons x xs ih =>
          intro hx
          simp only [List.find?_cons]
          rw [hx x (by simp), ih (fun y hy => hx y (by simp [hy]))]
      exact this _ e
    have hmem : o ∈ b.opts := List.mem_of_find?_eq_some h5
    have hsh : ['-', c] ∈ o.shorts := by simpa using List.find?_some h5
    rw [v1Letter, h5]
    cases hk : o.kind with
    | flag =>
      simp only [hk]
      rw [v1Letter_none trailing next (h1 c l1 b l2 o h2 hmem hk hsh)]
    | optional => simp only [hk]
    | required => simp only [hk]
  · intro b' hb' x hx
    have := h4 b' hb'
    rw [List.find?_eq_none] at this
    have := this x hx
    simp at this
    exact this.1

theorem v1Cluster_flags {blocks : List Block} (hb : BlocksOk blocks) {cmd : Str} (h1 : OneBlock blocks cmd) (next : Str)
    (cs rest : Str) (hf : FlagsOk (kindOf (findBOpt blocks cmd)) cs) :
    v1Cluster (blocks.filter (Block.active cmd)) next (cs ++ rest) =
      ⟨(flagOptions cs).map (bashRecord (findBOpt blocks cmd)) ++
          (v1Cluster (blocks.filter (Block.active cmd)) next rest).log,
        (v1Cluster (blocks.filter (Block.active cmd)) next rest).skip⟩ := by
  induction cs with
  | nil => simp [flagOptions]
  | cons c cs ih =>
    have ih := ih (fun d hd => hf d (by simp [hd]))
    obtain ⟨o, h2, h3⟩ := kindOf_some (hf c (by simp))
    simp only [List.cons_append, v1Cluster]
    rw [v1Letter_find hb h1 _ _ h2, h3, ih]
    simp [flagOptions, bashRecord, h2]

theorem v1_ok {blocks : List Block} (hb : BlocksOk blocks) (cmd : Str) (h1 : OneBlock blocks cmd) :
    BranchOk (v1Option blocks cmd) (findBOpt blocks cmd) := by
  refine ⟨?_, ?_, ?_, ?_⟩
  · intro n next o hn hf
    have ⟨hl, hq⟩ := name_length hn
    unfold v1Option
    simp only
    rw [v1Long_word hb cmd (by omega) hq, hf]
    rfl
  · intro n v next o hn hf hk
    have ⟨hl, hq⟩ := name_length hn
    unfold v1Option
    simp only
    rw [v1Long_eq_some hb cmd (by omega) hq v next hf hk]
  · intro c cs next hc hf hw
    unfold v1Option
    simp only
    rw [v1Long_cluster hb cmd next hw, List.tail_cons]
    have := v1Cluster_flags hb h1 next (c :: cs) [] hf
    rw [List.append_nil] at this
    simp only
    rw [this]
    simp [v1Cluster]
  · intro cs c v next o hh hf h2 hk hw
    unfold v1Option
    simp only
    rw [v1Long_cluster hb cmd next hw, List.tail_cons]
    simp only
    rw [v1Cluster_flags hb h1 next cs (c :: v) hf, v1Cluster, v1Letter_find hb h1 _ _ h2]
    cases hk2 : o.kind with
    | flag => exact absurd hk2 hk
    | required => by_cases hv : v = [] <;> simp [hv, v2Word, hk2]
    | optional => by_cases hv : v = [] <;> simp [hv, v2Word, hk2]

end CC

namespace CC

/-! ## The loop -/

/-- The command after some positionals. -/
def cmdFrom (cases : List SwitchCase) : Str → Nat → List Str → Str
  | cmd, _, [] => cmd
  | cmd, n, w :: ws => cmdFrom cases (switchCmd cases cmd (n + 1) w) (n + 1) ws

theorem cmdFrom_append (cases : List SwitchCase) (cmd : Str) (n : Nat) (ws vs : List Str) :
    cmdFrom cases cmd n (ws ++ vs) = cmdFrom cases (cmdFrom cases cmd n ws) (n + ws.length) vs := by
  induction ws generalizing cmd n with
  | nil => rfl
  | cons w ws ih =>
    simp only [List.cons_append, cmdFrom, ih, List.length_cons]
    congr 1
    omega

/-- What is recorded for a sequence of items. -/
def bashEntries (findAt : List Str → Str → Option BOpt) : List Str → List Item → List (Str × Str)
  | _, [] => []
  | ps, it :: its => it.options.map (bashRecord (findAt ps)) ++ bashEntries findAt (ps ++ it.positionals) its

theorem isOptionWord_name {n : Str} (h : LongName n ∨ OldName n) (v : Str) : isOptionWord (n ++ v) = true := by
  rcases h with ⟨⟨c, cs, rfl⟩, -⟩ | ⟨⟨c, d, cs, rfl, hc⟩, -⟩ <;> rfl

theorem name_append_ne {n : Str} (h : LongName n ∨ OldName n) (v : Str) : n ++ v ≠ ['-', '-'] := by
  rcases h with ⟨⟨c, cs, rfl⟩, -⟩ | ⟨⟨c, d, cs, rfl, hc⟩, -⟩ <;> simp

theorem bashLoop_option (option : Str → Str → Str → BEffect) (cases : List SwitchCase) (cur : Str) (post : List Str)
    (s : BState) {w : Str} (ws : List Str) (h1 : w ≠ ['-', '-']) (h2 : isOptionWord w = true) :
    bashLoop option cases cur post s false (w :: ws) =
      bashLoop option cases cur post { s with log := s.log ++ (option s.cmd w (ws.headD cur)).log }
        (option s.cmd w (ws.headD cur)).skip ws := by
  rw [bashLoop, if_neg h1, if_pos h2]

theorem cluster_word {d : Char} (ds : Str) (h : d ≠ '-') : '-' :: d :: ds ≠ ['-', '-'] ∧ isOptionWord ('-' :: d :: ds) = true := by
  constructor
  · simp [h]
  · rfl

/-- A cluster with an argument in the loop. -/
theorem bashLoop_last {option : Str → Str → Str → BEffect} (cases : List SwitchCase) (cur : Str) (post : List Str)
    (s : BState) {find : Str → Option BOpt} (hb : BranchOk (option s.cmd) find) {cs : Str} {c : Char} (v : Str) (ws : List Str)
    {o : BOpt} (hh : (cs ++ [c]).head? ≠ some '-') (hf : FlagsOk (kindOf find) cs) (ho : find ['-', c] = some o)
    (hk : o.kind ≠ .flag) (hw : ClusterOk (kindOf find) ('-' :: (cs ++ c :: v))) :
    bashLoop option cases cur post s false (('-' :: (cs ++ c :: v)) :: ws) =
      if v ≠ [] then bashLoop option cases cur post
        { s with log := s.log ++ ((flagOptions cs).map (bashRecord find) ++ [(o.var, v)]) } false ws
      else bashLoop option cases cur post
        { s with log := s.log ++ ((flagOptions cs).map (bashRecord find) ++ (v2Word o (ws.headD cur)).log) }
          (v2Word o (ws.headD cur)).skip ws := by
  have h := hb.last cs c v (ws.headD cur) o hh hf ho hk hw
  obtain ⟨d, ds, h2, h3⟩ := cluster_head hh v
  have h4 := cluster_word ds h3
  rw [h2] at h ⊢
  rw [bashLoop_option option cases cur post s ws h4.1 h4.2, h]
  split <;> rfl

theorem bashLoop_item {option : Str → Str → Str → BEffect} (cases : List SwitchCase) (cur : Str) (post : List Str)
    (s : BState) {find : Str → Option BOpt} (hb : BranchOk (option s.cmd) find) (it : Item) (hv : it.Valid (kindOf find))
    (rest : List Str) :
    bashLoop option cases cur post s false (it.words ++ rest) =
      bashLoop option cases cur post
        { s with log := s.log ++ it.options.map (bashRecord find), positionals := s.positionals ++ it.positionals,
                 cmd := cmdFrom cases s.cmd s.positionals.length it.positionals } false rest := by
  cases it with
  | word n =>
    obtain ⟨hn, hk⟩ := hv
    have h1 : ∃ o, find n = some o ∧ o.kind ≠ .required := by
      rcases hk with hk | hk <;> obtain ⟨o, h1, h2⟩ := kindOf_some hk <;> exact ⟨o, h1, by simp [h2]⟩
    obtain ⟨o, h1, h2⟩ := h1
    simp only [Item.words, List.cons_append, List.nil_append]
    have h3 := isOptionWord_name hn []
    rw [List.append_nil] at h3
    rw [bashLoop_option _ _ _ _ _ _ (name_ne_dashes hn) h3, hb.word _ _ _ hn h1]
    simp [v2Word, h2, Item.options, Item.positionals, bashRecord, h1, cmdFrom]
  | eq n v =>
    obtain ⟨hn, hk⟩ := hv
    have h1 : ∃ o, find n = some o ∧ o.kind ≠ .flag := by
      rcases hk with hk | hk <;> obtain ⟨o, h1, h2⟩ := kindOf_some hk <;> exact ⟨o, h1, by simp [h2]⟩
    obtain ⟨o, h1, h2⟩ := h1
    simp only [Item.words, List.cons_append, List.nil_append]
    rw [bashLoop_option _ _ _ _ _ _ (name_append_ne hn _) (isOptionWord_name hn _), hb.eq _ _ _ _ hn h1 h2]
    simp [Item.options, Item.positionals, bashRecord, h1, cmdFrom]
  | sep n v =>
    obtain ⟨hn, hk⟩ := hv
    obtain ⟨o, h1, h2⟩ := kindOf_some hk
    simp only [Item.words, List.cons_append, List.nil_append]
    have h3 := isOptionWord_name hn []
    rw [List.append_nil] at h3
    rw [bashLoop_option _ _ _ _ _ _ (name_ne_dashes hn) h3, hb.word _ _ _ hn h1]
    simp [v2Word, h2, Item.options, Item.positionals, bashRecord, h1, cmdFrom, bashLoop]
  | flags cs =>
    obtain ⟨hne, hh, hf, hw⟩ := hv
    simp only [Item.words, List.cons_append, List.nil_append]
    cases cs with
    | nil => exact absurd rfl hne
    | cons c cs =>
      have hc : c ≠ '-' := by simpa using hh
      have h4 := cluster_word cs hc
      rw [bashLoop_option _ _ _ _ _ _ h4.1 h4.2, hb.flags _ _ _ hc hf hw]
      simp [Item.options, Item.positionals, cmdFrom]
  | attached cs c v =>
    obtain ⟨hh, hf, hv, hk, hw⟩ := hv
    have h1 : ∃ o, find ['-', c] = some o ∧ o.kind ≠ .flag := by
      rcases hk with hk | hk <;> obtain ⟨o, h1, h2⟩ := kindOf_some hk <;> exact ⟨o, h1, by simp [h2]⟩
    obtain ⟨o, h1, h2⟩ := h1
    simp only [Item.words, List.cons_append, List.nil_append]
    rw [bashLoop_last cases cur post s hb v rest hh hf h1 h2 hw, if_pos hv]
    simp [Item.options, Item.positionals, cmdFrom, bashRecord, h1]
  | separate cs c v =>
    obtain ⟨hh, hf, hk, hw⟩ := hv
    obtain ⟨o, h1, h2⟩ := kindOf_some hk
    simp only [Item.words, List.cons_append, List.nil_append]
    rw [bashLoop_last cases cur post s hb [] (v :: rest) hh hf h1 (by simp [h2]) hw, if_neg (by simp)]
    simp [Item.options, Item.positionals, cmdFrom, bashRecord, h1, v2Word, h2, bashLoop]
  | bare cs c =>
    obtain ⟨hh, hf, hk, hw⟩ := hv
    obtain ⟨o, h1, h2⟩ := kindOf_some hk
    simp only [Item.words, List.cons_append, List.nil_append]
    rw [bashLoop_last cases cur post s hb [] rest hh hf h1 (by simp [h2]) hw, if_neg (by simp)]
    simp [Item.options, Item.positionals, cmdFrom, bashRecord, h1, v2Word, h2]
  | pos w =>
    simp only [Item.Valid] at hv
    simp only [Item.words, List.cons_append, List.nil_append]
    have h1 : w ≠ ['-', '-'] := hv _ _
    have h2 : isOptionWord w = false := by
      match w, hv with
      | [], _ => rfl
      | [c], _ => by_cases h : c = '-' <;> simp [isOptionWord]
      | c :: d :: ws, hv =>
        unfold isOptionWord
        split
        · rename_i a b h; simp at h; exact absurd (by rw [h.1]) (hv d ws)
        · rfl
    rw [bashLoop, if_neg h1, h2]
    simp [Item.options, Item.positionals, cmdFrom]

/-- Several items. -/
theorem bashLoop_items {option : Str → Str → Str → BEffect} (cases : List SwitchCase) (cur : Str) (post : List Str)
    (findAt : List Str → Str → Option BOpt) (its : List Item) : ∀ (s : BState),
    (∀ pre, pre <+: its.flatMap Item.positionals →
      BranchOk (option (cmdFrom cases s.cmd s.positionals.length pre)) (findAt (s.positionals ++ pre))) →
    ItemsValid (fun ps => kindOf (findAt ps)) s.positionals its → ∀ rest,
    bashLoop option cases cur post s false (its.flatMap Item.words ++ rest) =
      bashLoop option cases cur post
        { s with log := s.log ++ bashEntries findAt s.positionals its,
                 positionals := s.positionals ++ its.flatMap Item.positionals,
                 cmd := cmdFrom cases s.cmd s.positionals.length (its.flatMap Item.positionals) } false rest := by
  induction its with
  | nil => intro s _ _ rest; simp [bashEntries, cmdFrom]
  | cons it its ih =>
    intro s hb hv rest
    obtain ⟨h1, h2⟩ := hv
    simp only [List.flatMap_cons, List.append_assoc]
    have h3 := hb [] (by simp)
    simp only [cmdFrom, List.append_nil] at h3
    rw [bashLoop_item cases cur post s h3 it h1]
    rw [ih]
    · simp only [bashEntries, List.append_assoc]
      rw [cmdFrom_append]
      simp
    · intro pre hp
      simp only [List.append_assoc]
      have := hb (it.positionals ++ pre) (by simpa using hp)
      rw [cmdFrom_append] at this
      simpa using this
    · exact h2

/-- What the ending adds to the log: `cur` is the argument that is being typed. -/
def endingEntries (find : Str → Option BOpt) (cur : Str) (e : Ending) : List (Str × Str) :=
  e.options.map (bashRecord find) ++ (e.incomplete.map (fun n => bashRecord find (n, some cur))).toList

theorem bashLoop_ending {option : Str → Str → Str → BEffect} (cases : List SwitchCase) (cur : Str) (post : List Str)
    (s : BState) (hs : s.endOfOptions = false) {find : Str → Option BOpt} (hb : BranchOk (option s.cmd) find) (e : Ending)
    (hv : e.Valid (kindOf find)) :
    bashLoop option cases cur post s false e.words =
      { s with log := s.log ++ endingEntries find cur e, positionals := s.positionals ++ endingPositionals cur post e,
               endOfOptions := e.isDashes } := by
  cases e with
  | done =>
    simp only [Ending.words, bashLoop, endingEntries, endingPositionals, Ending.options, Ending.incomplete, Ending.isDashes]
    cases s
    simp only at hs
    subst hs
    unfold isOptionWord
    split <;> simp
  | dashes ws =>
    simp [Ending.words, bashLoop, endingEntries, endingPositionals, Ending.options, Ending.incomplete, Ending.isDashes]
  | word n =>
    obtain ⟨hn, hk⟩ := hv
    obtain ⟨o, h1, h2⟩ := kindOf_some hk
    simp only [Ending.words]
    have h3 := isOptionWord_name hn []
    rw [List.append_nil] at h3
    rw [bashLoop_option _ _ _ _ _ _ (name_ne_dashes hn) h3, hb.word _ _ _ hn h1]
    simp [v2Word, h2, endingEntries, endingPositionals, Ending.options, Ending.incomplete, Ending.isDashes, bashRecord, h1,
      bashLoop, ← hs]
  | cluster cs c =>
    obtain ⟨hh, hf, hk, hw⟩ := hv
    obtain ⟨o, h1, h2⟩ := kindOf_some hk
    simp only [Ending.words]
    rw [bashLoop_last cases cur post s hb [] [] hh hf h1 (by simp [h2]) hw, if_neg (by simp)]
    simp [v2Word, h2, endingEntries, endingPositionals, Ending.options, Ending.incomplete, Ending.isDashes, bashRecord, h1,
      bashLoop, ← hs]

end CC
