import Verif.Lemmas.Cmdline
/-!
# C49 (Zsh part), C57: the option table and the Zsh command line parser
-/

namespace CC

/-- The arrays hold exactly the options of the table. -/
def ArraysOk (a : ZshArrays) (kind : Str → Option ArgKind) : Prop :=
  ∀ st k s, s ∈ a.sel st k ↔ (kind s = some k ∧ qstyle s = st)

/-- The parts needed for the options of the table are compiled in. -/
def PartsOk (long short old : Bool) (kind : Str → Option ArgKind) : Prop :=
  ∀ s k, kind s = some k → enabled long short old (qstyle s) = true

theorem zshArrays_ok (long short old : Bool) (options : List Opt) (ht : TableOk (tableOf options))
    (he : PartsOk long short old (kindIn (tableOf options))) :
    ArraysOk (zshArrays long short old (queryOptionStrings options)) (kindIn (tableOf options)) := by
  intro st k s
  unfold zshArrays
  rw [queryOptionStrings_eq, zshFields_join _ ht.plain]
  rw [sel_foldl _ _ _ _ _ ht.plain]
  · have : s ∉ ({} : ZshArrays).sel st k := by cases st <;> cases k <;> simp [ZshArrays.sel]
    simp only [this, false_or, kindIn_iff ht]
  · intro e hm
    exact he e.1 e.2 ((kindIn_iff ht _ _).mpr hm)

/-- How an option without argument is recorded: with an empty value. -/
def queryRecord (o : Str × Option Str) : Str × Str := (o.1, o.2.getD [])

theorem zshCluster_flags {a : ZshArrays} {kind : Str → Option ArgKind} (ha : ArraysOk a kind) (next : Option Str)
    (cs rest : Str) (hf : FlagsOk kind cs) (hq : ∀ c ∈ cs, c ≠ '-') :
    zshCluster a next (cs ++ rest) =
      ⟨(flagOptions cs).map queryRecord ++ (zshCluster a next rest).having,
        (zshCluster a next rest).positionals, (zshCluster a next rest).incomplete, (zshCluster a next rest).skip⟩ := by
  induction cs with
  | nil => simp [flagOptions]
  | cons c cs ih =>
    have h1 : ['-', c] ∈ a.shortFlag :=
      (ha .short .flag ['-', c]).mpr ⟨hf c (by simp), qstyle_short (hq c (by simp))⟩
    have ih := ih (fun d hd => hf d (by simp [hd])) (fun d hd => hq d (by simp [hd]))
    simp only [List.cons_append, zshCluster]
    rw [if_pos (by simpa using h1), ih]
    simp [flagOptions, queryRecord]

theorem shortFlag_not {a : ZshArrays} {kind : Str → Option ArgKind} (ha : ArraysOk a kind) {s : Str} {k : ArgKind}
    (hk : kind s = some k) (hne : k ≠ .flag) : a.shortFlag.contains s = false := by
  simp only [List.contains_eq_mem, decide_eq_false_iff_not]
  intro h
  have := ((ha .short .flag s).mp h).1
  rw [hk] at this
  exact hne (Option.some.inj this)

theorem shortArg_not {a : ZshArrays} {kind : Str → Option ArgKind} (ha : ArraysOk a kind) {s : Str} {k : ArgKind}
    (hk : kind s = some k) (hne : k ≠ .required) : a.shortArg.contains s = false := by
  simp only [List.contains_eq_mem, decide_eq_false_iff_not]
  intro h
  have := ((ha .short .required s).mp h).1
  rw [hk] at this
  exact hne (Option.some.inj this)

theorem zshCluster_required {a : ZshArrays} {kind : Str → Option ArgKind} (ha : ArraysOk a kind) (next : Option Str)
    {c : Char} (hc : c ≠ '-') (hk : kind ['-', c] = some .required) (v : Str) :
    zshCluster a next (c :: v) = if v ≠ [] then { having := [(['-', c], v)] } else zshNext ['-', c] next := by
  have h1 : ['-', c] ∈ a.shortArg := (ha .short .required _).mpr ⟨hk, qstyle_short hc⟩
  rw [zshCluster, shortFlag_not ha hk (by simp)]
  simp [h1]

theorem zshCluster_optional {a : ZshArrays} {kind : Str → Option ArgKind} (ha : ArraysOk a kind) (next : Option Str)
    {c : Char} (hc : c ≠ '-') (hk : kind ['-', c] = some .optional) (v : Str) :
    zshCluster a next (c :: v) = { having := [(['-', c], v)] } := by
  have h1 : ['-', c] ∈ a.shortOpt := (ha .short .optional _).mpr ⟨hk, qstyle_short hc⟩
  rw [zshCluster, shortFlag_not ha hk (by simp), shortArg_not ha hk (by simp)]
  simp [h1]

/-- A cluster is not taken for an old-style option. -/
theorem zshOld_none {a : ZshArrays} {kind : Str → Option ArgKind} (ha : ArraysOk a kind) (next : Option Str)
    {w : Str} (hw : ClusterOk kind w) (h2 : ∀ c, w = ['-', c] → c ≠ '-') : zshOld a next w = none := by
  unfold zshOld
  have hold : ∀ k, '=' ∉ w → w ∉ a.sel .old k := by
    intro k heq hm
    have ⟨h3, h4⟩ := (ha .old k w).mp hm
    by_cases hl : w.length = 2
    · have : qstyle w ≠ .old := by simp [qstyle, hl]; split <;> simp
      exact this h4
    · rw [hw.2 heq hl] at h3; simp at h3
  by_cases heq : '=' ∈ w
  · rw [if_pos (by simpa using heq)]
    obtain ⟨p, r, rfl, hp⟩ := split_first_eq heq
    have hk := hw.1 p r rfl hp
    rw [beforeEq_append hp]
    have h5 : p ∉ a.oldArg := fun hm => by
      have := ((ha .old .required p).mp hm).1; rw [hk] at this; simp at this
    have h6 : p ∉ a.oldOpt := fun hm => by
      have := ((ha .old .optional p).mp hm).1; rw [hk] at this; simp at this
    simp [h5, h6]
  · rw [if_neg (by simpa using heq)]
    have h5 : w ∉ a.oldArg := hold .required heq
    have h6 : w ∉ a.oldOpt := hold .optional heq
    have h7 : w ∉ a.oldFlag := hold .flag heq
    simp [h5, h6, h7]

/-- A cluster word reaches the loop over its letters. -/
theorem zshWord_cluster {a : ZshArrays} {kind : Str → Option ArgKind} (ha : ArraysOk a kind) (long old : Bool)
    (next : Option Str) (c : Char) (cs : Str) (hc : c ≠ '-') (hw : ClusterOk kind ('-' :: c :: cs)) :
    zshWord long true old a ('-' :: c :: cs) next = zshCluster a next (c :: cs) := by
  have h1 : startsWith ('-' :: c :: cs) ['-', '-'] = false := by simp [startsWith, hc]
  have h2 : zshOld a next ('-' :: c :: cs) = none := zshOld_none ha next hw (by
    intro d hd; simp at hd; rw [← hd.1]; exact hc)
  unfold zshWord
  rw [h1]
  have h3 : (startsWith ('-' :: c :: cs) ['-'] && decide (('-' :: c :: cs).length ≥ 2)) = true := by
    simp [startsWith]
  simp only [Bool.false_eq_true, if_false, h3, if_true, h2]
  cases old <;> rfl

theorem style_name {n : Str} (h : LongName n ∨ OldName n) : qstyle n = .long ∨ qstyle n = .old := by
  rcases h with ⟨⟨c, cs, rfl⟩, -⟩ | ⟨⟨c, d, cs, rfl, hc⟩, -⟩
  · exact Or.inl (qstyle_long _ _)
  · exact Or.inr (qstyle_old _ _ hc)

/-- A name without `=` as a word. -/
theorem zshWord_word {a : ZshArrays} {kind : Str → Option ArgKind} (ha : ArraysOk a kind) {long short old : Bool}
    (hp : PartsOk long short old kind) {n : Str} (hn : LongName n ∨ OldName n) (next : Option Str) :
    (kind n = some .required → zshWord long short old a n next = zshNext n next) ∧
    (kind n = some .flag ∨ kind n = some .optional → zshWord long short old a n next = { having := [(n, [])] }) := by
  rcases hn with ⟨⟨c, cs, rfl⟩, heq⟩ | ⟨⟨c, d, cs, rfl, hc⟩, heq⟩
  · have hs : qstyle ('-' :: '-' :: c :: cs) = .long := qstyle_long _ _
    have h1 : startsWith ('-' :: '-' :: c :: cs) ['-', '-'] = true := by simp [startsWith]
    have h2 : ('-' :: '-' :: c :: cs).contains '=' = false := by simpa using heq
    constructor
    · intro hk
      have hl := hp _ _ hk
      rw [hs] at hl
      have h3 : ('-' :: '-' :: c :: cs) ∈ a.longArg := (ha .long .required _).mpr ⟨hk, hs⟩
      unfold zshWord
      simp only [enabled] at hl
      simp only [h1, h2, hl, if_true, Bool.false_eq_true, if_false]
      rw [if_pos (by simpa using h3)]
    · intro hk
      have h3 : ('-' :: '-' :: c :: cs) ∉ a.longArg := by
        intro hm
        have := ((ha .long .required _).mp hm).1
        rcases hk with hk | hk <;> · rw [hk] at this; simp at this
      have hl : enabled long short old (qstyle ('-' :: '-' :: c :: cs)) = true := by
        rcases hk with hk | hk <;> exact hp _ _ hk
      rw [hs] at hl
      simp only [enabled] at hl
      unfold zshWord
      simp only [h1, h2, hl, if_true, Bool.false_eq_true, if_false]
      rw [if_neg (by simpa using h3)]
  · have hs : qstyle ('-' :: c :: d :: cs) = .old := qstyle_old _ _ hc
    have h1 : startsWith ('-' :: c :: d :: cs) ['-', '-'] = false := by simp [startsWith, hc]
    have h2 : ('-' :: c :: d :: cs).contains '=' = false := by simpa using heq
    have h4 : (startsWith ('-' :: c :: d :: cs) ['-'] && decide (('-' :: c :: d :: cs).length ≥ 2)) = true := by
      simp [startsWith]
    constructor
    · intro hk
      have hl := hp _ _ hk
      rw [hs] at hl
      have h3 : ('-' :: c :: d :: cs) ∈ a.oldArg := (ha .old .required _).mpr ⟨hk, hs⟩
      have h5 : zshOld a next ('-' :: c :: d :: cs) = some (zshNext ('-' :: c :: d :: cs) next) := by
        unfold zshOld
        simp only [h2, Bool.false_eq_true, if_false]
        rw [if_pos (by simpa using h3)]
      unfold zshWord
      simp only [enabled] at hl
      simp only [h1, h4, hl, if_true, Bool.false_eq_true, if_false, h5]
    · intro hk
      have h3 : ('-' :: c :: d :: cs) ∉ a.oldArg := by
        intro hm
        have := ((ha .old .required _).mp hm).1
        rcases hk with hk | hk <;> · rw [hk] at this; simp at this
      have hl : enabled long short old (qstyle ('-' :: c :: d :: cs)) = true := by
        rcases hk with hk | hk <;> exact hp _ _ hk
      rw [hs] at hl
      simp only [enabled] at hl
      have h6 : ('-' :: c :: d :: cs) ∈ a.oldFlag ∨ ('-' :: c :: d :: cs) ∈ a.oldOpt := by
        rcases hk with hk | hk
        · exact Or.inl ((ha .old .flag _).mpr ⟨hk, hs⟩)
        · exact Or.inr ((ha .old .optional _).mpr ⟨hk, hs⟩)
      have h5 : zshOld a next ('-' :: c :: d :: cs) = some { having := [('-' :: c :: d :: cs, [])] } := by
        unfold zshOld
        simp only [h2, Bool.false_eq_true, if_false]
        rw [if_neg (by simpa using h3), if_pos (by simpa using h6)]
      unfold zshWord
      simp only [h1, h4, hl, if_true, Bool.false_eq_true, if_false, h5]

/-- `--name=value` -/
theorem zshWord_eq {a : ZshArrays} {kind : Str → Option ArgKind} (ha : ArraysOk a kind) {long short old : Bool}
    (hp : PartsOk long short old kind) {n : Str} (hn : LongName n ∨ OldName n) (v : Str) (next : Option Str)
    (hk : kind n = some .required ∨ kind n = some .optional) :
    zshWord long short old a (n ++ '=' :: v) next = { having := [(n, v)] } := by
  have hq : '=' ∉ n := by rcases hn with h | h <;> exact h.2
  have h2 : (n ++ '=' :: v).contains '=' = true := by simp
  have hb := beforeEq_append hq v
  have hf := afterEq_append hq v
  rcases hn with ⟨⟨c, cs, rfl⟩, heq⟩ | ⟨⟨c, d, cs, rfl, hc⟩, heq⟩
  · have h1 : startsWith ('-' :: '-' :: c :: cs ++ '=' :: v) ['-', '-'] = true := by simp [startsWith]
    unfold zshWord
    simp only [h1, h2, if_true, hb, hf]
  · have hs : qstyle ('-' :: c :: d :: cs) = .old := qstyle_old _ _ hc
    have h1 : startsWith ('-' :: c :: d :: cs ++ '=' :: v) ['-', '-'] = false := by simp [startsWith, hc]
    have h4 : (startsWith ('-' :: c :: d :: cs ++ '=' :: v) ['-'] &&
        decide (('-' :: c :: d :: cs ++ '=' :: v).length ≥ 2)) = true := by
      simp [startsWith]
    have hl : enabled long short old (qstyle ('-' :: c :: d :: cs)) = true := by
      rcases hk with hk | hk <;> exact hp _ _ hk
    rw [hs] at hl
    simp only [enabled] at hl
    have h6 : ('-' :: c :: d :: cs) ∈ a.oldArg ∨ ('-' :: c :: d :: cs) ∈ a.oldOpt := by
      rcases hk with hk | hk
      · exact Or.inl ((ha .old .required _).mpr ⟨hk, hs⟩)
      · exact Or.inr ((ha .old .optional _).mpr ⟨hk, hs⟩)
    have h5 : zshOld a next ('-' :: c :: d :: cs ++ '=' :: v) = some { having := [('-' :: c :: d :: cs, v)] } := by
      unfold zshOld
      simp only [h2, if_true, hb, hf]
      rw [if_pos (by simpa using h6)]
    unfold zshWord
    simp only [h1, h4, hl, if_true, Bool.false_eq_true, if_false, h5]

theorem name_ne_dashes {n : Str} (h : LongName n ∨ OldName n) : n ≠ ['-', '-'] := by
  rcases h with ⟨⟨c, cs, rfl⟩, -⟩ | ⟨⟨c, d, cs, rfl, hc⟩, -⟩ <;> simp

/-- The option string `--` is never in a table. -/
def NoDashes (kind : Str → Option ArgKind) : Prop := kind ['-', '-'] = none

theorem flagsOk_ne {kind : Str → Option ArgKind} (hd : NoDashes kind) {cs : Str} (h : FlagsOk kind cs) :
    ∀ c ∈ cs, c ≠ '-' := by
  intro c hc e
  subst e
  have := h _ hc
  rw [hd] at this; simp at this

theorem kind_ne {kind : Str → Option ArgKind} (hd : NoDashes kind) {c : Char} {k : ArgKind} (h : kind ['-', c] = some k) :
    c ≠ '-' := by
  intro e
  subst e
  rw [hd] at h; simp at h

theorem zshLoop_cons (long short old : Bool) (a : ZshArrays) (p : Parsed) (w : Str) (ws : List Str)
    (h : w ≠ ['-', '-']) :
    zshLoop long short old a id p false (w :: ws) =
      zshLoop long short old a id (p.apply (zshWord long short old a w ws.head?))
        (zshWord long short old a w ws.head?).skip ws := by
  rw [zshLoop]
  simp [h]

theorem zshLoop_skip (long short old : Bool) (a : ZshArrays) (p : Parsed) (w : Str) (ws : List Str) :
    zshLoop long short old a id p true (w :: ws) = zshLoop long short old a id p false ws := by
  rw [zshLoop]

/-- The first letter of a cluster. -/
theorem cluster_head {cs : Str} {c : Char} (h : (cs ++ [c]).head? ≠ some '-') (v : Str) :
    ∃ d ds, cs ++ c :: v = d :: ds ∧ d ≠ '-' := by
  cases cs with
  | nil => exact ⟨c, v, rfl, by simpa using h⟩
  | cons x xs => exact ⟨x, xs ++ c :: v, rfl, by simpa using h⟩

/-- A cluster word in the loop. -/
theorem zshLoop_cluster {a : ZshArrays} {kind : Str → Option ArgKind} (ha : ArraysOk a kind) (long old : Bool)
    (hd : NoDashes kind) (p : Parsed) {cs : Str} {c : Char} (v : Str) (h1 : (cs ++ [c]).head? ≠ some '-')
    (hf : FlagsOk kind cs) (hw : ClusterOk kind ('-' :: (cs ++ c :: v))) (ws : List Str) :
    zshLoop long true old a id p false (('-' :: (cs ++ c :: v)) :: ws) =
      zshLoop long true old a id (p.apply ⟨(flagOptions cs).map queryRecord ++ (zshCluster a ws.head? (c :: v)).having,
        (zshCluster a ws.head? (c :: v)).positionals, (zshCluster a ws.head? (c :: v)).incomplete,
        (zshCluster a ws.head? (c :: v)).skip⟩) (zshCluster a ws.head? (c :: v)).skip ws := by
  have hcl := zshCluster_flags ha ws.head? cs (c :: v) hf (flagsOk_ne hd hf)
  obtain ⟨d, ds, h2, h3⟩ := cluster_head h1 v
  rw [zshLoop_cons]
  · rw [h2] at hw hcl ⊢
    rw [zshWord_cluster ha long old _ d ds h3 hw, hcl]
  · rw [h2]; simp [h3]

theorem short_on {long short old : Bool} {kind : Str → Option ArgKind} (hp : PartsOk long short old kind)
    (hd : NoDashes kind) {c : Char} {k : ArgKind} (h : kind ['-', c] = some k) : short = true := by
  have := hp _ _ h
  rw [qstyle_short (kind_ne hd h)] at this
  exact this

/-- One item. -/
theorem zshLoop_item {a : ZshArrays} {kind : Str → Option ArgKind} (ha : ArraysOk a kind) {long short old : Bool}
    (hp : PartsOk long short old kind) (hd : NoDashes kind) (p : Parsed) (it : Item) (hv : it.Valid kind)
    (rest : List Str) :
    zshLoop long short old a id p false (it.words ++ rest) =
      zshLoop long short old a id ⟨p.having ++ it.options.map queryRecord, p.positionals ++ it.positionals, p.incomplete⟩
        false rest := by
  cases it with
  | word n =>
    obtain ⟨hn, hk⟩ := hv
    simp only [Item.words, List.cons_append, List.nil_append]
    rw [zshLoop_cons _ _ _ _ _ _ _ (name_ne_dashes hn), (zshWord_word ha hp hn _).2 hk]
    simp [Parsed.apply, Item.options, Item.positionals, queryRecord]
  | eq n v =>
    obtain ⟨hn, hk⟩ := hv
    simp only [Item.words, List.cons_append, List.nil_append]
    rw [zshLoop_cons _ _ _ _ _ _ _ (by
        rcases hn with ⟨⟨c, cs, rfl⟩, -⟩ | ⟨⟨c, d, cs, rfl, hc⟩, -⟩ <;> simp),
      zshWord_eq ha hp hn v _ hk]
    simp [Parsed.apply, Item.options, Item.positionals, queryRecord]
  | sep n v =>
    obtain ⟨hn, hk⟩ := hv
    simp only [Item.words, List.cons_append, List.nil_append]
    rw [zshLoop_cons _ _ _ _ _ _ _ (name_ne_dashes hn), (zshWord_word ha hp hn _).1 hk]
    simp [Parsed.apply, Item.options, Item.positionals, queryRecord, zshNext, zshLoop_skip]
  | flags cs =>
    obtain ⟨hne, hh, hf, hw⟩ := hv
    simp only [Item.words, List.cons_append, List.nil_append]
    cases cs with
    | nil => exact absurd rfl hne
    | cons c cs =>
      have hc : c ≠ '-' := by simpa using hh
      have hs := short_on hp hd (hf c (by simp))
      subst hs
      rw [zshLoop_cons _ _ _ _ _ _ _ (by simp [hc]), zshWord_cluster ha _ _ _ _ _ hc hw]
      have := zshCluster_flags ha rest.head? (c :: cs) [] hf (flagsOk_ne hd hf)
      rw [List.append_nil] at this
      rw [this]
      simp [zshCluster, Parsed.apply, Item.options, Item.positionals]
  | attached cs c v =>
    obtain ⟨hh, hf, hv, hk, hw⟩ := hv
    have hs : short = true := by rcases hk with hk | hk <;> exact short_on hp hd hk
    subst hs
    have hc : c ≠ '-' := by rcases hk with hk | hk <;> exact kind_ne hd hk
    simp only [Item.words, List.cons_append, List.nil_append]
    rw [zshLoop_cluster ha _ _ hd p v hh hf hw]
    have : zshCluster a rest.head? (c :: v) = { having := [(['-', c], v)] } := by
      rcases hk with hk | hk
      · rw [zshCluster_required ha _ hc hk, if_pos hv]
      · rw [zshCluster_optional ha _ hc hk]
    rw [this]
    simp [Parsed.apply, Item.options, Item.positionals, queryRecord]
  | separate cs c v =>
    obtain ⟨hh, hf, hk, hw⟩ := hv
    have hs := short_on hp hd hk
    subst hs
    simp only [Item.words, List.cons_append, List.nil_append]
    rw [zshLoop_cluster ha _ _ hd p [] hh hf hw, zshCluster_required ha _ (kind_ne hd hk) hk]
    simp [Parsed.apply, Item.options, Item.positionals, queryRecord, zshNext, zshLoop_skip]
  | bare cs c =>
    obtain ⟨hh, hf, hk, hw⟩ := hv
    have hs := short_on hp hd hk
    subst hs
    simp only [Item.words, List.cons_append, List.nil_append]
    rw [zshLoop_cluster ha _ _ hd p [] hh hf hw, zshCluster_optional ha _ (kind_ne hd hk) hk]
    simp [Parsed.apply, Item.options, Item.positionals, queryRecord]
  | pos w =>
    simp only [Item.Valid] at hv
    simp only [Item.words, List.cons_append, List.nil_append]
    rw [zshLoop_cons _ _ _ _ _ _ _ (fun e => hv '-' [] e)]
    have h1 : startsWith w ['-', '-'] = false := by
      match w, hv with
      | [], _ => rfl
      | [c], _ => by_cases h : c = '-' <;> simp [startsWith]
      | c :: d :: ws, hv =>
        by_cases h : c = '-'
        · subst h; exact absurd rfl (hv d ws)
        · simp [startsWith, h]
    have h2 : (startsWith w ['-'] && decide (w.length ≥ 2)) = false := by
      match w, hv with
      | [], _ => rfl
      | [c], _ => simp
      | c :: d :: ws, hv =>
        by_cases h : c = '-'
        · subst h; exact absurd rfl (hv d ws)
        · simp [startsWith, h]
    have : zshWord long short old a w rest.head? = { positionals := [w] } := by
      unfold zshWord
      simp only [h1, h2, Bool.false_eq_true, if_false]
    rw [this]
    simp [Parsed.apply, Item.options, Item.positionals]

/-- Several items. -/
theorem zshLoop_items {a : ZshArrays} {kind : Str → Option ArgKind} (ha : ArraysOk a kind) {long short old : Bool}
    (hp : PartsOk long short old kind) (hd : NoDashes kind) (its : List Item) (hv : ∀ it ∈ its, it.Valid kind)
    (p : Parsed) (rest : List Str) :
    zshLoop long short old a id p false (its.flatMap Item.words ++ rest) =
      zshLoop long short old a id ⟨p.having ++ (its.flatMap Item.options).map queryRecord,
        p.positionals ++ its.flatMap Item.positionals, p.incomplete⟩ false rest := by
  induction its generalizing p with
  | nil => simp
  | cons it its ih =>
    simp only [List.flatMap_cons, List.append_assoc]
    rw [zshLoop_item ha hp hd p it (hv it (by simp)), ih (fun x hx => hv x (by simp [hx]))]
    simp

/-- The ending. -/
theorem zshLoop_ending {a : ZshArrays} {kind : Str → Option ArgKind} (ha : ArraysOk a kind) {long short old : Bool}
    (hp : PartsOk long short old kind) (hd : NoDashes kind) (e : Ending) (hv : e.Valid kind) (p : Parsed) :
    zshLoop long short old a id p false e.words =
      ⟨p.having ++ e.options.map queryRecord, p.positionals ++ e.positionals, e.incomplete.getD p.incomplete⟩ := by
  cases e with
  | done => simp [Ending.words, zshLoop, Ending.options, Ending.positionals, Ending.incomplete]
  | dashes ws => simp [Ending.words, zshLoop, Ending.options, Ending.positionals, Ending.incomplete]
  | word n =>
    obtain ⟨hn, hk⟩ := hv
    simp only [Ending.words]
    rw [zshLoop_cons _ _ _ _ _ _ _ (name_ne_dashes hn), (zshWord_word ha hp hn _).1 hk]
    simp [Parsed.apply, Ending.options, Ending.positionals, zshNext, zshLoop, Ending.incomplete]
  | cluster cs c =>
    obtain ⟨hh, hf, hk, hw⟩ := hv
    have hs := short_on hp hd hk
    subst hs
    simp only [Ending.words]
    rw [zshLoop_cluster ha _ _ hd p [] hh hf hw, zshCluster_required ha _ (kind_ne hd hk) hk]
    simp [Parsed.apply, Ending.options, Ending.positionals, zshNext, zshLoop, Ending.incomplete]

/-- Quotes can be removed beforehand, if the words after `--` have none. -/
theorem zshLoop_quotes (long short old : Bool) (a : ZshArrays) (q : Str → Str) (raws : List Str) (p : Parsed) (k : Bool)
    (h : ∀ pre w post, raws = pre ++ w :: post → q w = ['-', '-'] → post.map q = post) :
    zshLoop long short old a q p k raws = zshLoop long short old a id p k (raws.map q) := by
  induction raws generalizing p k with
  | nil => cases k <;> simp [zshLoop]
  | cons w raws ih =>
    have ih := fun p k => ih p k (fun pre x post hx => h (w :: pre) x post (by simp [hx]))
    cases k with
    | true =>
      simp only [List.map_cons]
      rw [zshLoop_skip, zshLoop, ih]
    | false =>
      simp only [List.map_cons]
      by_cases hw : q w = ['-', '-']
      · rw [zshLoop, if_pos hw, zshLoop, if_pos (by simpa using hw), h [] w raws rfl hw]
      · rw [zshLoop, if_neg hw, zshLoop_cons _ _ _ _ _ _ _ hw, ih]
        simp

/-- **C57 (partial)** The Zsh parser records exactly what was typed: for every option list whose option
strings are plain (no `=`, no space, not `--`), with the parts for its kinds of options compiled in, every
sequence of items that uses these options as they allow, and every ending, the parser records the given
options with their arguments in order, the positionals in order, and the option whose argument is
missing. `q` removes quotes from words. Missing: after `--` words must not be quoted, see
`C57_quoted_after_dashes`. -/
theorem C57_parse_partial (long short old : Bool) (options : List Opt) (ht : TableOk (tableOf options))
    (he : ∀ s k, (s, k) ∈ tableOf options → enabled long short old (qstyle s) = true)
    (its : List Item) (e : Ending) (hi : ∀ it ∈ its, it.Valid (kindIn (tableOf options)))
    (hv : e.Valid (kindIn (tableOf options))) (q : Str → Str) (raws : List Str)
    (hraw : raws.map q = its.flatMap Item.words ++ e.words)
    (hq : ∀ pre w post, raws = pre ++ w :: post → q w = ['-', '-'] → post.map q = post) :
    zshQueryInit long short old (queryOptionStrings options) q raws =
      { having := (its.flatMap Item.options ++ e.options).map (fun o => (o.1, o.2.getD []))
        positionals := its.flatMap Item.positionals ++ e.positionals
        incomplete := e.incomplete.getD [] } := by
  have hp : PartsOk long short old (kindIn (tableOf options)) :=
    fun s k hk => he s k ((kindIn_iff ht _ _).mp hk)
  have hd : NoDashes (kindIn (tableOf options)) := by
    unfold NoDashes
    cases hk : kindIn (tableOf options) ['-', '-'] with
    | none => rfl
    | some k => exact absurd rfl (ht.plain _ ((kindIn_iff ht _ _).mp hk)).2.1
  have ha := zshArrays_ok long short old options ht hp
  unfold zshQueryInit
  rw [zshLoop_quotes _ _ _ _ _ _ _ _ hq, hraw, zshLoop_items ha hp hd _ hi, zshLoop_ending ha hp hd _ hv]
  simp
  rfl

/-- After `--`, words keep their quotes: the word `'a'` is recorded as `'a'`, not as `a`. -/
theorem C57_quoted_after_dashes :
    let q : Str → Str := fun w => w.filter (· != '\'')
    (zshQueryInit true true true [] q [S "--", S "'a'"]).positionals = [S "'a'"] ∧
    (zshQueryInit true true true [] q [S "'a'"]).positionals = [S "a"] := by decide

/-- **C49 (Zsh, partial)** Reading the option table back in Zsh gives exactly the options: an option string is in the
array for its form and its argument kind and in no other. Missing: option strings containing `=`, see
`C49_ambiguous`. -/
theorem C49_zsh_partial (long short old : Bool) (options : List Opt) (ht : TableOk (tableOf options))
    (he : ∀ s k, (s, k) ∈ tableOf options → enabled long short old (qstyle s) = true)
    (st : QStyle) (k : ArgKind) (s : Str) :
    s ∈ (zshArrays long short old (queryOptionStrings options)).sel st k ↔
      (∃ o ∈ options, s ∈ o.strings ∧ o.kind = k) ∧ qstyle s = st := by
  have hp : PartsOk long short old (kindIn (tableOf options)) :=
    fun s k hk => he s k ((kindIn_iff ht _ _).mp hk)
  rw [zshArrays_ok long short old options ht hp st k s, kindIn_iff ht]
  have : (s, k) ∈ tableOf options ↔ ∃ o ∈ options, s ∈ o.strings ∧ o.kind = k := by
    unfold tableOf
    simp only [List.mem_flatMap, List.mem_map, Prod.mk.injEq]
    constructor
    · rintro ⟨o, ho, x, hx, rfl, hk⟩; exact ⟨o, ho, hx, hk⟩
    · rintro ⟨o, ho, hx, hk⟩; exact ⟨o, ho, s, hx, rfl, hk⟩
  rw [this]

/-- A case of `C57_parse_partial` with every kind of item: the command line
`-vo out --color=auto --file x -xyz1 -old a -- -b`. -/
theorem C57_example :
    let options : List Opt := [{ strings := [S "-v"] }, { strings := [S "-o"], complete := some [] },
      { strings := [S "--color"], complete := some [], optionalArg := true },
      { strings := [S "--file"], complete := some [] }, { strings := [S "-old"] }]
    let its : List Item := [.separate (S "v") 'o' (S "out"), .eq (S "--color") (S "auto"), .sep (S "--file") (S "x"),
      .attached (S "v") 'o' (S "1"), .word (S "-old"), .pos (S "a")]
    let e : Ending := .dashes [S "-b"]
    TableOk (tableOf options) ∧ (∀ it ∈ its, it.Valid (kindIn (tableOf options))) ∧ e.Valid (kindIn (tableOf options)) ∧
    its.flatMap Item.words ++ e.words = [S "-vo", S "out", S "--color=auto", S "--file", S "x", S "-vo1", S "-old", S "a",
      S "--", S "-b"] ∧
    zshQueryInit true true true (queryOptionStrings options) id (its.flatMap Item.words ++ e.words) =
      ⟨[(S "-v", []), (S "-o", S "out"), (S "--color", S "auto"), (S "--file", S "x"), (S "-v", []), (S "-o", S "1"),
        (S "-old", [])], [S "a", S "-b"], []⟩ := by
  have nameOk : ∀ (kind : Str → Option ArgKind) (w : Str), '=' ∉ w → kind w = none → ClusterOk kind w := by
    intro kind w h hk
    exact ⟨fun p r e => absurd (by rw [e]; simp) h, fun _ _ => hk⟩
  refine ⟨⟨?_, ?_⟩, ?_, trivial, by decide, by decide⟩
  · intro e he
    have : e.1 = S "-v" ∨ e.1 = S "-o" ∨ e.1 = S "--color" ∨ e.1 = S "--file" ∨ e.1 = S "-old" := by
      simp [tableOf] at he
      rcases he with rfl | rfl | rfl | rfl | rfl <;> simp
    rcases this with h | h | h | h | h <;> rw [h] <;>
      exact ⟨⟨_, _, rfl⟩, by decide, by decide, by decide⟩
  · intro s k k' h h'
    simp [tableOf] at h h'
    rcases h with ⟨rfl, rfl⟩ | ⟨rfl, rfl⟩ | ⟨rfl, rfl⟩ | ⟨rfl, rfl⟩ | ⟨rfl, rfl⟩ <;>
      simp [S] at h' <;> exact h'.symm
  · intro it hit
    simp only [List.mem_cons, List.not_mem_nil, or_false] at hit
    rcases hit with rfl | rfl | rfl | rfl | rfl | rfl
    · exact ⟨by decide, by unfold FlagsOk; decide, by decide, nameOk _ _ (by decide) (by decide)⟩
    · exact ⟨Or.inl ⟨⟨_, _, rfl⟩, by decide⟩, by decide⟩
    · exact ⟨Or.inl ⟨⟨_, _, rfl⟩, by decide⟩, by decide⟩
    · exact ⟨by decide, by unfold FlagsOk; decide, by decide, by decide, nameOk _ _ (by decide) (by decide)⟩
    · exact ⟨Or.inr ⟨⟨_, _, _, rfl, by decide⟩, by decide⟩, by decide⟩
    · intro c cs h; simp [S] at h

end CC
