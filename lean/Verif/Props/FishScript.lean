import Verif.Lemmas.FishScript
/-!
# C68, C69: what the Fish script offers after some words
-/

namespace CC

open ShellGrammar WhenSpec

/-! ## The `complete` commands of the script -/

/-- Where a `complete` command comes from. -/
inductive FromOf (isRegex : Str → Bool) (qs : List Cmd) (x : Cmd) : FishDef → Prop
  | option (o : Opt) (d : FishDef) : o ∈ x.data.options → fishOption isRegex qs x o = .ok d → FromOf isRegex qs x d
  | positional (p : Pos) (d : FishDef) : p ∈ x.data.positionals → fishPositional isRegex qs x p = .ok d → FromOf isRegex qs x d
  | subcommands (n : Nat) : x.sub = some n → FromOf isRegex qs x (fishSubcommands qs x n)

theorem fishOwnDefs_iff {isRegex : Str → Bool} {root : Cmd} {qs : List Cmd} {x : Cmd} (hx : At root qs x) {ds : List FishDef}
    (h : fishOwnDefs isRegex qs x = .ok ds) :
    (∀ d, d ∈ ds ↔ FromOf isRegex qs x d) ∧ (∀ o ∈ x.data.options, ∃ d, fishOption isRegex qs x o = .ok d) ∧
      (∀ p ∈ x.data.positionals, ∃ d, fishPositional isRegex qs x p = .ok d) := by
  unfold fishOwnDefs at h
  simp only [bind, Except.bind] at h
  cases h1 : mapE (fishOption isRegex qs x) (getOptions qs x false false) with
  | error e => rw [h1] at h; simp at h
  | ok os =>
    rw [h1] at h; simp only at h
    cases h2 : mapE (fishPositional isRegex qs x) x.data.positionals with
    | error e => rw [h2] at h; simp at h
    | ok ps =>
      rw [h2] at h
      simp only [Except.ok.injEq] at h
      obtain ⟨a1, a2, -⟩ := mapE_mem h1
      obtain ⟨b1, b2, -⟩ := mapE_mem h2
      refine ⟨?_, ?_, ?_⟩
      · intro d
        rw [← h, List.mem_append, List.mem_append]
        constructor
        · rintro ((hd | hd) | hd)
          · obtain ⟨o, ho, he⟩ := a2 d hd
            exact .option o d ((ownOptions_mem hx o).mp ho) he
          · obtain ⟨p, hp, he⟩ := b2 d hd
            exact .positional p d hp he
          · cases hs : x.sub with
            | none => rw [hs] at hd; simp at hd
            | some n =>
              rw [hs] at hd
              simp at hd
              subst hd
              exact .subcommands n hs
        · rintro (⟨o, d, ho, he⟩ | ⟨p, d, hp, he⟩ | ⟨n, hn⟩)
          · obtain ⟨y, hy, hy2⟩ := a1 o ((ownOptions_mem hx o).mpr ho)
            rw [he] at hy2; cases hy2
            exact .inl (.inl hy)
          · obtain ⟨y, hy, hy2⟩ := b1 p hp
            rw [he] at hy2; cases hy2
            exact .inl (.inr hy)
          · rw [hn]; simp
      · intro o ho
        obtain ⟨y, -, hy⟩ := a1 o ((ownOptions_mem hx o).mpr ho)
        exact ⟨y, hy⟩
      · intro p hp
        obtain ⟨y, -, hy⟩ := b1 p hp
        exact ⟨y, hy⟩

theorem fishScript_iff {isRegex : Str → Bool} {root : Cmd} {ds : List FishDef} (h : fishScript isRegex root = .ok ds) (d : FishDef) :
    d ∈ ds ↔ ∃ qs x d0, At root qs x ∧ FromOf isRegex qs x d0 ∧ d = d0.fix (commandArgNums qs x) := by
  unfold fishScript at h
  simp only [bind, Except.bind] at h
  cases h1 : mapE (fun e : List Cmd × Cmd => fishDefsOf isRegex e.1 e.2) (root.walk []) with
  | error e => rw [h1] at h; simp at h
  | ok dss =>
    rw [h1] at h
    simp only [Except.ok.injEq] at h
    obtain ⟨a1, a2, -⟩ := mapE_mem h1
    have hone : ∀ (e : List Cmd × Cmd) r, fishDefsOf isRegex e.1 e.2 = .ok r → At root e.1 e.2 →
        (d ∈ r ↔ ∃ d0, FromOf isRegex e.1 e.2 d0 ∧ d = d0.fix (commandArgNums e.1 e.2)) := by
      intro e r hr hat
      unfold fishDefsOf at hr
      simp only [bind, Except.bind] at hr
      cases h2 : fishOwnDefs isRegex e.1 e.2 with
      | error e => rw [h2] at hr; simp at hr
      | ok r0 =>
        rw [h2] at hr
        simp only [Except.ok.injEq] at hr
        rw [← hr, List.mem_map]
        constructor
        · rintro ⟨d0, h3, rfl⟩
          exact ⟨d0, ((fishOwnDefs_iff hat h2).1 d0).mp h3, rfl⟩
        · rintro ⟨d0, h3, rfl⟩
          exact ⟨d0, ((fishOwnDefs_iff hat h2).1 d0).mpr h3, rfl⟩
    rw [← h, List.mem_flatten]
    constructor
    · rintro ⟨r, hr, hd⟩
      obtain ⟨⟨qs, x⟩, he, hr⟩ := a2 r hr
      have hat := (mem_walk_iff root qs x).mp he
      obtain ⟨d0, h3, h4⟩ := (hone (qs, x) r hr hat).mp hd
      exact ⟨qs, x, d0, hat, h3, h4⟩
    · rintro ⟨qs, x, d0, hat, h3, h4⟩
      obtain ⟨r, hr, hr2⟩ := a1 (qs, x) ((mem_walk_iff root qs x).mpr hat)
      exact ⟨r, hr, (hone (qs, x) r hr2 hat).mpr ⟨d0, h3, h4⟩⟩

/-! ## Options -/

theorem posPlace_eq (parents : List Cmd) (p : Pos) : positionalIndex parents p.number = PosPlace parents p := by
  rw [positionalIndex_eq]; unfold PosPlace; omega

theorem walk_mem_below (x : Cmd) : ∀ qs e, e ∈ x.walk qs ↔ ∃ rest, e.1 ++ [e.2] = qs ++ x :: rest ∧ IsChain x rest := by
  induction x using Cmd.ind with
  | _ d s ch ih =>
    intro qs e
    rw [walk_eq]
    simp only [List.mem_cons, List.mem_flatMap]
    constructor
    · rintro (rfl | ⟨y, hy, he⟩)
      · exact ⟨[], rfl, trivial⟩
      · obtain ⟨rest, h1, h2⟩ := (ih y hy _ e).mp he
        exact ⟨y :: rest, by rw [h1]; simp, hy, h2⟩
    · rintro ⟨rest, h1, h2⟩
      cases rest with
      | nil =>
        left
        have := List.append_inj' h1 rfl
        simp at this
        exact Prod.ext this.1 this.2
      | cons y rest =>
        right
        obtain ⟨hy, h2⟩ := h2
        exact ⟨y, hy, (ih y hy _ e).mpr ⟨rest, by rw [h1]; simp, h2⟩⟩

theorem isChain_of_at {root : Cmd} {rs : List Cmd} {y : Cmd} (hy : At root rs y) {qs : List Cmd} {x : Cmd} {rest : List Cmd}
    (h : rs ++ [y] = qs ++ x :: rest) : IsChain x rest := by
  induction rest generalizing qs x with
  | nil => trivial
  | cons z rest ih =>
    exact ⟨(at_step hy h).2, ih (qs := qs ++ [x]) (x := z) (by rw [h]; simp)⟩

theorem mem_commandArgNums {root : Cmd} {qs : List Cmd} {x : Cmd} (hx : At root qs x) (n : Nat) :
    n ∈ commandArgNums qs x ↔ ∃ rs y, At root rs y ∧ AtOrBelow qs x rs y ∧ ∃ p ∈ y.data.positionals, IsCommandArg p ∧ n = PosPlace rs p + 1 := by
  unfold commandArgNums
  simp only [List.mem_flatMap, List.mem_map, List.mem_filter]
  constructor
  · rintro ⟨⟨rs, y⟩, he, p, ⟨hp, hc⟩, rfl⟩
    obtain ⟨rest, h1, h2⟩ := (walk_mem_below x qs _).mp he
    refine ⟨rs, y, walk_at root x qs hx _ he, ⟨rest, h1⟩, p, hp, ?_, ?_⟩
    · simpa [Pos.isCommandArg, IsCommandArg] using hc
    · simp [positionalNum, posPlace_eq]
  · rintro ⟨rs, y, hy, ⟨rest, h1⟩, p, hp, hc, rfl⟩
    refine ⟨(rs, y), (walk_mem_below x qs _).mpr ⟨rest, h1, isChain_of_at hy h1⟩, p, ⟨hp, ?_⟩, ?_⟩
    · simpa [Pos.isCommandArg, IsCommandArg] using hc
    · simp [positionalNum, posPlace_eq]

theorem countLt_holds (rx : Bool → Str → Str → Bool) (hid : List Str → Bool) (σ : QueryState) (n : Nat) :
    (FishCond.not (.prim (.posCount .ge (((n + 1 : Nat) : Int) - 1)))).holds (FishPrim.succeeds rx hid σ) = true ↔
      σ.positionals.length < n := by
  show (!decide ((σ.positionals.length : Int) ≥ _)) = true ↔ _
  rw [Bool.not_eq_true', decide_eq_false_iff_not]
  omega

/-- The strings of an option are those of its three kinds. -/
theorem kinds_nonempty {o : Opt} (hne : o.strings ≠ []) (hv : ∀ s ∈ o.strings, IsOption s) :
    (o.shortStrings.isEmpty && o.longStrings.isEmpty && o.oldStrings.isEmpty) = false := by
  cases hs : o.strings with
  | nil => exact absurd hs hne
  | cons s ss =>
    have hm : s ∈ o.strings := by rw [hs]; simp
    have hst := style_iff (hv s hm) (qstyle s)
    have := hst.1.mp (hst.2.mpr rfl)
    cases hq : qstyle s with
    | long =>
      rw [hq] at this
      have : s ∈ o.longStrings := List.mem_filter.mpr ⟨hm, this⟩
      cases h : o.longStrings with
      | nil => rw [h] at this; simp at this
      | cons => simp
    | short =>
      rw [hq] at this
      have : s ∈ o.shortStrings := List.mem_filter.mpr ⟨hm, this⟩
      cases h : o.shortStrings with
      | nil => rw [h] at this; simp at this
      | cons => simp
    | old =>
      rw [hq] at this
      have : s ∈ o.oldStrings := List.mem_filter.mpr ⟨hm, this⟩
      cases h : o.oldStrings with
      | nil => rw [h] at this; simp at this
      | cons => simp

/-- What `fishOption` makes. -/
theorem fishOption_ok {isRegex : Str → Bool} {qs : List Cmd} {x : Cmd} {o : Opt} {d : FishDef} (h : fishOption isRegex qs x o = .ok d) :
    ∃ r, conflictingOptions x.data.options o = .ok r ∧ whenTokens isRegex o.when_ = .ok d.when_ ∧
      d.target = .option o ∧ d.short = o.shortStrings ∧ d.long = o.longStrings ∧ d.old = o.oldStrings ∧
      d.conds = (let notHas := (getFinalOptions qs x).flatMap (·.strings) ++ r.flatMap (·.strings) ++
          (if o.repeatable = .val false then o.strings else [])
        (if notHas.isEmpty then [] else [.not (.prim (.hasOption (uniq notHas)))]) ++
        (if o.hidden then [.hidden o.strings] else []) ++
        fishPlace qs x ++ fishPath qs x) := by
  unfold fishOption at h
  simp only [bind, Except.bind] at h
  cases h1 : conflictingOptions x.data.options o with
  | error e => rw [h1] at h; simp at h
  | ok r =>
    rw [h1] at h; simp only at h
    cases h2 : whenTokens isRegex o.when_ with
    | error e => rw [h2] at h; simp at h
    | ok ts =>
      rw [h2] at h
      simp only [Except.ok.injEq] at h
      subst h
      exact ⟨r, rfl, rfl, rfl, rfl, rfl, rfl, rfl⟩

/-- **C68 (conditions)** The exact conditions under which the `complete` command of an option of a command of the
tree is active after words that reach a command. -/
theorem C68_active {isRegex : Str → Bool} {rx : Bool → Str → Str → Bool} {hid : List Str → Bool} {root : Cmd} (hf : CleanFish root)
    {l : Line} {parents : List Cmd} {c : Cmd} (hr : Reached root l.positionals parents c)
    {qs : List Cmd} {x : Cmd} (hx : At root qs x) {o : Opt} (ho : o ∈ x.data.options) (hw : WhenSafe isRegex o.when_)
    {d : FishDef} (hd : fishOption isRegex qs x o = .ok d) :
    (d.fix (commandArgNums qs x)).active (FishPrim.succeeds rx hid ⟨l.given, l.positionals⟩) ↔
      ((∃ rest, parents ++ [c] = qs ++ x :: rest) ∧
       (∀ n, SubPlace qs x n → ¬ Inherits x → l.positionals.length = n) ∧
       (∀ f, FinalHere qs x f → ¬ GivenIn l f) ∧
       (∀ y ∈ x.data.options, ShareGroup o y → y.eqv o = false → ¬ GivenIn l y) ∧
       (o.repeatable = .val false → ¬ GivenIn l o) ∧
       (o.hidden = true → hid o.strings = true) ∧
       WhenTrueOf isRegex rx l o.when_ ∧
       ∀ rs y, At root rs y → AtOrBelow qs x rs y → ∀ p ∈ y.data.positionals, IsCommandArg p → l.positionals.length < PosPlace rs p) := by
  obtain ⟨r, h1, h2, h3, h4, h5, h6, h7⟩ := fishOption_ok hd
  obtain ⟨hne, hstr⟩ := hf.options _ _ hx o ho
  have hfix : d.fix (commandArgNums qs x) = { d with conds := d.conds ++ (commandArgNums qs x).map (fun (n : Nat) =>
      FishCond.not (.prim (.posCount .ge ((n : Int) - 1)))) } := by
    unfold FishDef.fix
    rw [h4, h5, h6, kinds_nonempty hne (fun s hs => (hstr s hs).1)]
    rfl
  rw [hfix, active_iff hw (d := { d with conds := d.conds ++ (commandArgNums qs x).map (fun (n : Nat) =>
      FishCond.not (.prim (.posCount .ge ((n : Int) - 1)))) }) h2]
  generalize hv : FishPrim.succeeds rx hid ⟨l.given, l.positionals⟩ = v
  -- the conflicting options
  obtain ⟨r', hr', -, hc1, hc2, hc3⟩ := C17_conflicts x.data.options o ho
  rw [h1] at hr'; cases hr'
  have hconf : (∀ s ∈ r.flatMap (·.strings), ∀ v, (s, v) ∉ l.given) ↔
      ∀ y ∈ x.data.options, ShareGroup o y → y.eqv o = false → ¬ GivenIn l y := by
    constructor
    · rintro h y hy hs he ⟨s, hs1, v, hv⟩
      obtain ⟨z, hz, hzy⟩ := hc3 y hy hs he
      exact h s (List.mem_flatMap.mpr ⟨z, hz, by rw [(Opt.eqv_fields hzy).1]; exact hs1⟩) v hv
    · intro h s hs v hv
      obtain ⟨z, hz, hzs⟩ := List.mem_flatMap.mp hs
      exact h z (hc2 z hz).1 (hc2 z hz).2 (hc1 z hz) ⟨s, hzs, v, hv⟩
  have hfin : (∀ s ∈ (getFinalOptions qs x).flatMap (·.strings), ∀ v, (s, v) ∉ l.given) ↔ ∀ f, FinalHere qs x f → ¬ GivenIn l f := by
    constructor
    · rintro h f hf ⟨s, hs, v, hv⟩
      exact h s (List.mem_flatMap.mpr ⟨f, final_mem.mpr hf, hs⟩) v hv
    · intro h s hs v hv
      obtain ⟨f, hf, hfs⟩ := List.mem_flatMap.mp hs
      exact h f (final_mem.mp hf) ⟨s, hfs, v, hv⟩
  have hagain : (∀ s ∈ (if o.repeatable = .val false then o.strings else []), ∀ v, (s, v) ∉ l.given) ↔
      (o.repeatable = .val false → ¬ GivenIn l o) := by
    by_cases hrep : o.repeatable = .val false
    · rw [if_pos hrep]
      constructor
      · rintro h - ⟨s, hs, v, hv⟩; exact h s hs v hv
      · intro h s hs v hv; exact h hrep ⟨s, hs, v, hv⟩
    · rw [if_neg hrep]; simp [hrep]
  have hnot : ∀ ss : List Str, (∀ k ∈ (if ss.isEmpty then [] else [FishCond.not (.prim (.hasOption (uniq ss)))]), k.holds v = true) ↔
      ∀ s ∈ ss, ∀ v, (s, v) ∉ l.given := by
    intro ss
    cases hss : ss.isEmpty with
    | true => rw [List.isEmpty_iff] at hss; subst hss; simp
    | false =>
      simp only [Bool.false_eq_true, if_false, List.mem_singleton, forall_eq]
      rw [← hv]; exact notHas_holds rx hid ⟨l.given, l.positionals⟩ ss
  have hhid : (∀ k ∈ (if o.hidden = true then [FishCond.hidden o.strings] else []), k.holds v = true) ↔
      (o.hidden = true → hid o.strings = true) := by
    rw [← hv]
    cases o.hidden <;> simp [FishCond.holds, FishPrim.succeeds]
  have hplace : (∀ k ∈ fishPlace qs x, k.holds v = true) ↔ (∀ n, SubPlace qs x n → ¬ Inherits x → l.positionals.length = n) := by
    have hinh : x.data.inheritOptions = .val false ↔ ¬ Inherits x := by
      unfold Inherits
      have := hf.inherit _ _ hx
      cases hi : x.data.inheritOptions with
      | inherit => exact absurd hi this
      | val b => cases b <;> simp
    unfold fishPlace
    cases hs : x.sub with
    | none => simp [SubPlace, hs]
    | some n =>
      have hsl : subSlot qs x = some (positionalIndex qs n) := by simp [subSlot, hs]
      have hsp := (subSlot_iff (hf.tree.numbered _ _ hx) _).mp hsl
      by_cases hi : Inherits x
      · have : ¬ x.data.inheritOptions = .val false := fun h => (hinh.mp h) hi
        simp only [this, if_false, List.not_mem_nil, false_implies, implies_true, true_iff]
        exact fun _ _ h => absurd hi h
      · have : x.data.inheritOptions = .val false := hinh.mpr hi
        simp only [this, if_true, List.mem_singleton, forall_eq]
        rw [← hv, countEq_holds]
        constructor
        · intro h m hm _
          rw [h]
          exact hsp.2.trans hm.2.symm
        · intro h
          exact h _ hsp hi
  have hpath := path_holds hf hr hx rx hid l.given
  have hargs : (∀ k ∈ (commandArgNums qs x).map (fun (n : Nat) => FishCond.not (.prim (.posCount .ge ((n : Int) - 1)))), k.holds v = true) ↔
      ∀ rs y, At root rs y → AtOrBelow qs x rs y → ∀ p ∈ y.data.positionals, IsCommandArg p → l.positionals.length < PosPlace rs p := by
    rw [← hv]
    constructor
    · intro h rs y hy hb p hp hca
      have := h _ (List.mem_map.mpr ⟨_, (mem_commandArgNums hx _).mpr ⟨rs, y, hy, hb, p, hp, hca, rfl⟩, rfl⟩)
      exact (countLt_holds rx hid _ _).mp this
    · intro h k hk
      obtain ⟨n, hn, rfl⟩ := List.mem_map.mp hk
      obtain ⟨rs, y, hy, hb, p, hp, hca, rfl⟩ := (mem_commandArgNums hx _).mp hn
      exact (countLt_holds rx hid _ _).mpr (h rs y hy hb p hp hca)
  rw [hv] at hpath
  rw [h7]
  simp only [List.forall_mem_append]
  rw [hnot, hhid, hplace, hpath, hargs]
  simp only [List.forall_mem_append]
  rw [hfin, hconf, hagain]
  constructor
  · rintro ⟨⟨⟨⟨⟨⟨⟨a, b⟩, c⟩, d⟩, e⟩, f⟩, g⟩, h⟩; exact ⟨f, e, a, b, c, d, h, g⟩
  · rintro ⟨f, e, a, b, c, d, h, g⟩; exact ⟨⟨⟨⟨⟨⟨⟨a, b⟩, c⟩, d⟩, e⟩, f⟩, g⟩, h⟩

theorem width_mono {a b : List Cmd} (h : a <+: b) : (a.map width).sum ≤ (b.map width).sum := by
  obtain ⟨r, rfl⟩ := h
  simp

theorem subPlace_width {qs : List Cmd} {x : Cmd} {n : Nat} (h : SubPlace qs x n) : n + 1 = ((qs ++ [x]).map width).sum := by
  obtain ⟨h1, h2⟩ := h
  rw [h2]
  simp [width, h1]
  omega

/-- A command that is passed on the way to the command reached. -/
theorem passed_place {root : Cmd} (hc : CleanTree root) {ps : List Str} {parents : List Cmd} {c : Cmd} (hr : Reached root ps parents c)
    {qs : List Cmd} {x : Cmd} {rest : List Cmd} (he : parents ++ [c] = qs ++ x :: rest) (hne : rest ≠ []) {n : Nat}
    (hn : SubPlace qs x n) : n < ps.length := by
  have h1 := (reached_slot hc.toM ((reached_iff hc _ _ _).mp hr)).1
  have h2 : qs ++ [x] <+: parents := by
    have : qs ++ x :: rest = (qs ++ x :: rest.dropLast) ++ [rest.getLast hne] := by
      simp [List.dropLast_concat_getLast]
    rw [this] at he
    have := (List.append_inj' he rfl).1
    exact ⟨rest.dropLast, by rw [this]; simp⟩
  have := width_mono h2
  rw [← subPlace_width hn] at this
  omega

/-- The place of the subcommand of the command reached has not been passed. -/
theorem current_place {root : Cmd} (hc : CleanTree root) {ps : List Str} {parents : List Cmd} {c : Cmd} (hr : Reached root ps parents c)
    {n : Nat} (hn : SubPlace parents c n) : ps.length ≤ n := by
  have hrM := (reached_iff hc _ _ _).mp hr
  exact (reached_slot hc.toM hrM).2 n ((subSlot_iff (hc.numbered _ _ (reached_at hrM)) n).mpr hn)

/-- Who is inherited from. -/
theorem mem_inheritedFrom {parents : List Cmd} {c : Cmd} {e : List Cmd × Cmd} :
    e ∈ inheritedFrom parents c ↔ e = (parents, c) ∨ (Inherits e.2 ∧ ∃ rest, rest ≠ [] ∧ parents ++ [c] = e.1 ++ e.2 :: rest) := by
  unfold inheritedFrom
  simp only [List.mem_cons, List.mem_reverse, List.mem_filter, decide_eq_true_eq]
  refine or_congr Iff.rfl ?_
  constructor
  · rintro ⟨h1, h2⟩
    obtain ⟨pre, post, h3, h4⟩ := mem_chainEntries h1
    exact ⟨h2, post ++ [c], by simp, by rw [h3, h4]; simp⟩
  · rintro ⟨h1, rest, hne, he⟩
    refine ⟨?_, h1⟩
    have : e.1 ++ e.2 :: rest = (e.1 ++ e.2 :: rest.dropLast) ++ [rest.getLast hne] := by
      simp [List.dropLast_concat_getLast]
    rw [this] at he
    rw [(List.append_inj' he rfl).1]
    have := chainEntries_mem [] e.1 e.2 rest.dropLast
    simpa using this

/-- The final options of a command on the way are final here. -/
theorem final_above {parents : List Cmd} {c : Cmd} {e : List Cmd × Cmd} (he : e ∈ inheritedFrom parents c) {f : Opt}
    (hf : FinalHere e.1 e.2 f) : FinalHere parents c f := by
  rcases mem_inheritedFrom.mp he with rfl | ⟨-, rest, hne, heq⟩
  · exact hf
  · have hsplit : e.1 ++ e.2 :: rest = (e.1 ++ e.2 :: rest.dropLast) ++ [rest.getLast hne] := by
      simp [List.dropLast_concat_getLast]
    rw [hsplit] at heq
    have hp := (List.append_inj' heq rfl).1
    refine ⟨hf.1, Or.inr ?_⟩
    rcases hf.2 with h | ⟨p, hp', h⟩
    · exact ⟨e.2, by rw [hp]; simp, h⟩
    · exact ⟨p, by rw [hp]; simp [hp'], h⟩

/-- **C68 (one `complete` command, partial)** After words that reach a command, the `complete` command of an option
is active exactly if the option belongs to the command or to a parent that passes its options on, and may still be
given. The conditions are in `CleanFish`, `FinalsAbove` and `NoOtherArguments`. -/
theorem C68_option_partial (isRegex : Str → Bool) (rx : Bool → Str → Str → Bool) (hid : List Str → Bool) (root : Cmd)
    (hf : CleanFish root) (ds : List FishDef) (hs : fishScript isRegex root = .ok ds)
    (hw : ∀ qs x, At root qs x → ∀ o ∈ x.data.options, WhenSafe isRegex o.when_)
    (l : Line) (parents : List Cmd) (c : Cmd) (hr : Reached root l.positionals parents c)
    (hfin : FinalsAbove l parents c) (hargs : NoOtherArguments root parents c l.positionals.length) (o : Opt) :
    (∃ d ∈ ds, d.target = .option o ∧ d.active (FishPrim.succeeds rx hid ⟨l.given, l.positionals⟩)) ↔
      ∃ e ∈ inheritedFrom parents c, o ∈ e.2.data.options ∧ MayBeGiven isRegex rx hid l parents c e.2 o := by
  have hrM := (reached_iff hf.tree _ _ _).mp hr
  have hatc := reached_at hrM
  constructor
  · rintro ⟨d, hd, ht, ha⟩
    obtain ⟨qs, x, d0, hx, hfrom, rfl⟩ := (fishScript_iff hs d).mp hd
    have htarget : ∀ nums, (d0.fix nums).target = d0.target := by
      intro nums; unfold FishDef.fix; split <;> rfl
    rw [htarget] at ht
    cases hfrom with
    | positional p d hp h =>
      unfold fishPositional at h
      simp only [bind, Except.bind] at h
      cases h2 : whenTokens isRegex p.when_ with
      | error e => rw [h2] at h; simp at h
      | ok ts => rw [h2] at h; simp only [Except.ok.injEq] at h; rw [← h] at ht; simp at ht
    | subcommands n hn => simp [fishSubcommands] at ht
    | option o' d ho h =>
      obtain ⟨r, -, -, h3, -⟩ := fishOption_ok h
      rw [h3] at ht
      simp only [FishTarget.option.injEq] at ht
      subst ht
      obtain ⟨⟨rest, hrest⟩, hpl, hfi, hgr, hag, hhi, hwh, har⟩ := (C68_active hf hr hx ho (hw _ _ hx _ ho) h).mp ha
      have he : (qs, x) ∈ inheritedFrom parents c := by
        rw [mem_inheritedFrom]
        by_cases hne : rest = []
        · left
          subst hne
          have := List.append_inj' hrest rfl
          simp at this
          rw [this.1, this.2]
        · right
          refine ⟨?_, rest, hne, hrest⟩
          by_cases hi : Inherits x
          · exact hi
          · exfalso
            obtain ⟨d, rest', rfl⟩ := List.exists_cons_of_ne_nil hne
            obtain ⟨-, hch⟩ := at_step hatc hrest
            have hsome := hf.tree.slot _ _ hx (List.ne_nil_of_mem hch)
            have hsp : SubPlace qs x _ := ⟨hsome, rfl⟩
            have h1 := hpl _ hsp hi
            have h2 := passed_place hf.tree hr hrest (by simp) hsp
            omega
      refine ⟨(qs, x), he, ho, ⟨?_, hgr, hag, hhi, hwh, ?_⟩⟩
      · intro f h1 h2
        exact hfi f (hfin _ he f h1 h2) h2
      · intro p hp hca
        exact har parents c hatc ⟨rest, hrest⟩ p hp hca
  · rintro ⟨⟨qs, x⟩, he, ho, hm⟩
    simp only at ho hm
    have hrest : ∃ rest, parents ++ [c] = qs ++ x :: rest := by
      rcases mem_inheritedFrom.mp he with h | ⟨-, rest, -, h⟩
      · cases h; exact ⟨[], rfl⟩
      · exact ⟨rest, h⟩
    have hx : At root qs x := by
      obtain ⟨rest, hrest⟩ := hrest
      have := at_prefix hatc (qs, x) (by
        rw [hrest]
        have := chainEntries_mem [] qs x rest
        simpa using this)
      exact this
    have hok : ∃ d, fishOption isRegex qs x o = .ok d := by
      unfold fishScript at hs
      simp only [bind, Except.bind] at hs
      cases h1 : mapE (fun e : List Cmd × Cmd => fishDefsOf isRegex e.1 e.2) (root.walk []) with
      | error e => rw [h1] at hs; simp at hs
      | ok dss =>
        obtain ⟨r, -, hr2⟩ := (mapE_mem h1).1 (qs, x) ((mem_walk_iff root qs x).mpr hx)
        unfold fishDefsOf at hr2
        simp only [bind, Except.bind] at hr2
        cases h2 : fishOwnDefs isRegex qs x with
        | error e => rw [h2] at hr2; simp at hr2
        | ok r0 => exact (fishOwnDefs_iff hx h2).2.1 o ho
    obtain ⟨d0, hd0⟩ := hok
    refine ⟨d0.fix (commandArgNums qs x), (fishScript_iff hs _).mpr ⟨qs, x, d0, hx, .option o d0 ho hd0, rfl⟩, ?_, ?_⟩
    · obtain ⟨r, -, -, h3, -⟩ := fishOption_ok hd0
      unfold FishDef.fix
      split
      · exact h3
      · exact h3
    · refine (C68_active hf hr hx ho (hw _ _ hx _ ho) hd0).mpr
        ⟨hrest, ?_, fun f h => hm.final f (final_above he h), hm.group, hm.again, hm.hidden, hm.when_, ?_⟩
      · intro n hn hi
        rcases mem_inheritedFrom.mp he with h | ⟨h, -⟩
        · cases h
          have h1 := current_place hf.tree hr hn
          have h2 := (reached_slot hf.tree.toM hrM).1
          have h3 := hn.2
          rw [hf.places _ _ hx hn.1 hi] at h3
          simp at h3
          omega
        · exact absurd h hi
      · intro rs y hy hb p hp hca
        by_cases hyc : (rs, y) = (parents, c)
        · cases hyc; exact hm.arguments p hp hca
        · by_cases hxc : (qs, x) = (parents, c)
          · cases hxc
            obtain ⟨rest, hb⟩ := hb
            have hne : rest ≠ [] := by
              intro h
              subst h
              have := List.append_inj' hb rfl
              simp at this
              exact hyc (by rw [this.1, this.2])
            obtain ⟨d, rest', rfl⟩ := List.exists_cons_of_ne_nil hne
            obtain ⟨-, hch⟩ := at_step hy hb
            have hsome := hf.tree.slot _ _ hx (List.ne_nil_of_mem hch)
            have hsp : SubPlace parents c _ := ⟨hsome, rfl⟩
            have h1 := current_place hf.tree hr hsp
            have h2 := subPlace_width hsp
            have h3 : parents ++ [c] <+: rs := by
              have hsplit : parents ++ c :: d :: rest' = (parents ++ c :: (d :: rest').dropLast) ++ [(d :: rest').getLast hne] := by
                simp [List.dropLast_concat_getLast]
              rw [hsplit] at hb
              rw [(List.append_inj' hb rfl).1]
              exact ⟨(d :: rest').dropLast, by simp⟩
            have h4 := width_mono h3
            unfold PosPlace
            omega
          · exact hargs (qs, x) he hxc rs y hy hb hyc p hp hca

/-- A `complete` command offers the strings of its option. -/
theorem offers_strings {o : Opt} (hv : ∀ s ∈ o.strings, IsOption s ∧ ∀ r, s ≠ '-' :: '-' :: '-' :: r) {d : FishDef}
    (h1 : d.short = o.shortStrings) (h2 : d.long = o.longStrings) (h3 : d.old = o.oldStrings) (w : Str) :
    w ∈ d.offers ↔ w ∈ o.strings := by
  have hlong : ∀ s ∈ o.strings, isLongOptionString s = true → '-' :: '-' :: stripDashes s = s := by
    intro s hs h
    obtain ⟨⟨hne, c, cs, rfl, -⟩, h3⟩ := hv s hs
    simp [isLongOptionString, startsWith] at h
    subst h
    cases cs with
    | nil => simp at hne
    | cons d cs =>
      have : d ≠ '-' := fun e => h3 cs (by rw [e])
      simp [stripDashes, this]
  have hother : ∀ s ∈ o.strings, (isShortOptionString s = true ∨ isOldOptionString s = true) → '-' :: stripDashes s = s := by
    intro s hs h
    obtain ⟨⟨hne, c, cs, rfl, -⟩, h3⟩ := hv s hs
    have : c ≠ '-' := by
      rintro rfl
      rcases h with h | h
      · simp [isShortOptionString] at h; subst h; simp at hne
      · simp [isOldOptionString, startsWith] at h
    simp [stripDashes, this]
  unfold FishDef.offers
  rw [h1, h2, h3, List.mem_append, List.mem_append, List.mem_map, List.mem_map, List.mem_map]
  constructor
  · rintro ((⟨s, hs, rfl⟩ | ⟨s, hs, rfl⟩) | ⟨s, hs, rfl⟩)
    · obtain ⟨ha, hb⟩ := List.mem_filter.mp hs
      rw [hother s ha (.inl hb)]; exact ha
    · obtain ⟨ha, hb⟩ := List.mem_filter.mp hs
      rw [hlong s ha hb]; exact ha
    · obtain ⟨ha, hb⟩ := List.mem_filter.mp hs
      rw [hother s ha (.inr hb)]; exact ha
  · intro hw
    have hst := style_iff (hv w hw).1 (qstyle w)
    have := hst.1.mp (hst.2.mpr rfl)
    cases hq : qstyle w with
    | long => rw [hq] at this; exact .inl (.inr ⟨w, List.mem_filter.mpr ⟨hw, this⟩, hlong w hw this⟩)
    | short => rw [hq] at this; exact .inl (.inl ⟨w, List.mem_filter.mpr ⟨hw, this⟩, hother w hw (.inl this)⟩)
    | old => rw [hq] at this; exact .inr ⟨w, List.mem_filter.mpr ⟨hw, this⟩, hother w hw (.inr this)⟩

/-- **C68 (option strings, partial)** After words that reach a command, Fish offers exactly the strings of the options
that may still be given. -/
theorem C68_offered_partial (isRegex : Str → Bool) (rx : Bool → Str → Str → Bool) (hid : List Str → Bool) (root : Cmd)
    (hf : CleanFish root) (ds : List FishDef) (hs : fishScript isRegex root = .ok ds)
    (hw : ∀ qs x, At root qs x → ∀ o ∈ x.data.options, WhenSafe isRegex o.when_)
    (l : Line) (parents : List Cmd) (c : Cmd) (hr : Reached root l.positionals parents c)
    (hfin : FinalsAbove l parents c) (hargs : NoOtherArguments root parents c l.positionals.length) (w : Str) :
    (∃ d ∈ ds, d.active (FishPrim.succeeds rx hid ⟨l.given, l.positionals⟩) ∧ w ∈ d.offers) ↔
      ∃ e ∈ inheritedFrom parents c, ∃ o ∈ e.2.data.options, w ∈ o.strings ∧ MayBeGiven isRegex rx hid l parents c e.2 o := by
  have hfixo : ∀ (d : FishDef) nums, (d.fix nums).short = d.short ∧ (d.fix nums).long = d.long ∧ (d.fix nums).old = d.old ∧
      (d.fix nums).target = d.target := by
    intro d nums; unfold FishDef.fix; split <;> exact ⟨rfl, rfl, rfl, rfl⟩
  have hfrom : ∀ d ∈ ds, w ∈ d.offers → ∃ o, d.target = .option o ∧ w ∈ o.strings := by
    intro d hd hwd
    obtain ⟨qs, x, d0, hx, hfrom, rfl⟩ := (fishScript_iff hs d).mp hd
    obtain ⟨f1, f2, f3, f4⟩ := hfixo d0 (commandArgNums qs x)
    cases hfrom with
    | positional p d hp h =>
      unfold fishPositional at h
      simp only [bind, Except.bind] at h
      cases h2 : whenTokens isRegex p.when_ with
      | error e => rw [h2] at h; simp at h
      | ok ts =>
        rw [h2] at h; simp only [Except.ok.injEq] at h
        unfold FishDef.offers at hwd
        rw [f1, f2, f3, ← h] at hwd; simp at hwd
    | subcommands n hn =>
      unfold FishDef.offers at hwd
      rw [f1, f2, f3] at hwd
      simp [fishSubcommands] at hwd
    | option o d ho h =>
      obtain ⟨r, -, -, h3, h4, h5, h6, -⟩ := fishOption_ok h
      refine ⟨o, by rw [f4]; exact h3, ?_⟩
      exact (offers_strings (hf.options _ _ hx o ho).2 (f1.trans h4) (f2.trans h5) (f3.trans h6) w).mp hwd
  constructor
  · rintro ⟨d, hd, ha, hwd⟩
    obtain ⟨o, ht, hwo⟩ := hfrom d hd hwd
    obtain ⟨e, he, ho, hm⟩ := (C68_option_partial isRegex rx hid root hf ds hs hw l parents c hr hfin hargs o).mp ⟨d, hd, ht, ha⟩
    exact ⟨e, he, o, ho, hwo, hm⟩
  · rintro ⟨e, he, o, ho, hwo, hm⟩
    obtain ⟨d, hd, ht, ha⟩ := (C68_option_partial isRegex rx hid root hf ds hs hw l parents c hr hfin hargs o).mpr ⟨e, he, ho, hm⟩
    refine ⟨d, hd, ha, ?_⟩
    obtain ⟨qs, x, d0, hx, hfrom, rfl⟩ := (fishScript_iff hs d).mp hd
    obtain ⟨f1, f2, f3, f4⟩ := hfixo d0 (commandArgNums qs x)
    rw [f4] at ht
    cases hfrom with
    | positional p d hp h =>
      unfold fishPositional at h
      simp only [bind, Except.bind] at h
      cases h2 : whenTokens isRegex p.when_ with
      | error e => rw [h2] at h; simp at h
      | ok ts => rw [h2] at h; simp only [Except.ok.injEq] at h; rw [← h] at ht; simp at ht
    | subcommands n hn => simp [fishSubcommands] at ht
    | option o' d ho' h =>
      obtain ⟨r, -, -, h3, h4, h5, h6, -⟩ := fishOption_ok h
      rw [h3] at ht
      simp only [FishTarget.option.injEq] at ht
      subst ht
      exact (offers_strings (hf.options _ _ hx _ ho').2 (f1.trans h4) (f2.trans h5) (f3.trans h6) w).mpr hwo

/-! ## The words typed -/

/-- The Fish helper of the script records what was typed. -/
theorem fishQueryOf_eq {root : Cmd} (hp : PlainTree root) {its : List Item} {e : Ending}
    (hi : ItemsValid (fishKindAt (definedOptionTypes root).subcommands (fishTable root)) [] its)
    (hv : e.Valid (fishKindAt (definedOptionTypes root).subcommands (fishTable root) (its.flatMap Item.positionals))) :
    let p := fishQueryOf root (its.flatMap Item.words ++ e.words)
    p.having = (lineOf its e).given ∧ p.positionals = (lineOf its e).positionals := by
  have h := C58_parse (definedOptionTypes root).long (definedOptionTypes root).short (definedOptionTypes root).old
    (definedOptionTypes root).subcommands (fishTable root)
    (fun d hd x hx => ⟨treeOption_plain hp (fishTable_tree hd hx), types_enabled hp (fishTable_tree hd hx)⟩) its e hi hv
  rw [← fishTreeDefs_eq] at h
  simp only [fishQueryOf, h]
  exact ⟨rfl, rfl⟩

/-- **C68 (partial)** For every tree, every command line that uses options as Fish knows them (C58), complete or
ending with an option whose argument is missing, and every option string: with the script, Fish offers the string
exactly if it belongs to an option that may still be given, of the command reached or of a parent that passes its
options on. If the argument of an option is missing, that option does not count as given; so its argument is
completed as well. Missing: see `C68_before_positional`, `C68_sibling_argument`, `C68_alias_twice`,
`C68_three_dashes`, `C68_final_below` and `C68_argument_lost`. -/
theorem C68_typed_partial (isRegex : Str → Bool) (rx : Bool → Str → Str → Bool) (hid : List Str → Bool) (root : Cmd)
    (hf : CleanFish root) (hp : PlainTree root) (ds : List FishDef) (hs : fishScript isRegex root = .ok ds)
    (hw : ∀ qs x, At root qs x → ∀ o ∈ x.data.options, WhenSafe isRegex o.when_)
    (its : List Item) (e : Ending)
    (hi : ItemsValid (fishKindAt (definedOptionTypes root).subcommands (fishTable root)) [] its)
    (hv : e.Valid (fishKindAt (definedOptionTypes root).subcommands (fishTable root) (its.flatMap Item.positionals)))
    (parents : List Cmd) (c : Cmd) (hr : Reached root (lineOf its e).positionals parents c)
    (hfin : FinalsAbove (lineOf its e) parents c)
    (hargs : NoOtherArguments root parents c (lineOf its e).positionals.length) (w : Str) :
    let p := fishQueryOf root (its.flatMap Item.words ++ e.words)
    (∃ d ∈ ds, d.active (FishPrim.succeeds rx hid ⟨p.having, p.positionals⟩) ∧ w ∈ d.offers) ↔
      ∃ x ∈ inheritedFrom parents c, ∃ o ∈ x.2.data.options, w ∈ o.strings ∧
        MayBeGiven isRegex rx hid (lineOf its e) parents c x.2 o := by
  intro p
  obtain ⟨h1, h2⟩ := fishQueryOf_eq hp hi hv
  have h1 : p.having = _ := h1
  have h2 : p.positionals = _ := h2
  rw [h1, h2]
  exact C68_offered_partial isRegex rx hid root hf ds hs hw (lineOf its e) parents c hr hfin hargs w

/-! ## C69: positionals and subcommands -/

theorem fishPositional_ok {isRegex : Str → Bool} {qs : List Cmd} {x : Cmd} {p : Pos} {d : FishDef}
    (h : fishPositional isRegex qs x p = .ok d) :
    whenTokens isRegex p.when_ = .ok d.when_ ∧ d.target = .positional p ∧ d.short = [] ∧ d.long = [] ∧ d.old = [] ∧
      d.conds = fishPath qs x ++ [.prim (.posCount (if p.repeatable then .ge else .eq) ((positionalNum qs p.number : Int) - 1))] := by
  unfold fishPositional at h
  simp only [bind, Except.bind] at h
  cases h2 : whenTokens isRegex p.when_ with
  | error e => rw [h2] at h; simp at h
  | ok ts =>
    rw [h2] at h
    simp only [Except.ok.injEq] at h
    subst h
    exact ⟨rfl, rfl, rfl, rfl, rfl, rfl⟩

theorem fix_plain {d : FishDef} (h1 : d.short = []) (h2 : d.long = []) (h3 : d.old = []) (nums : List Nat) : d.fix nums = d := by
  unfold FishDef.fix
  rw [h1, h2, h3]
  rfl

/-- The exact conditions of the `complete` command of a positional. -/
theorem positional_active {isRegex : Str → Bool} {rx : Bool → Str → Str → Bool} {hid : List Str → Bool} {root : Cmd} (hf : CleanFish root)
    {l : Line} {parents : List Cmd} {c : Cmd} (hr : Reached root l.positionals parents c)
    {qs : List Cmd} {x : Cmd} (hx : At root qs x) {p : Pos} (hw : WhenSafe isRegex p.when_)
    {d : FishDef} (hd : fishPositional isRegex qs x p = .ok d) :
    d.active (FishPrim.succeeds rx hid ⟨l.given, l.positionals⟩) ↔
      ((∃ rest, parents ++ [c] = qs ++ x :: rest) ∧ PosHere qs p l.positionals.length ∧ WhenTrueOf isRegex rx l p.when_) := by
  obtain ⟨h1, -, -, -, -, h2⟩ := fishPositional_ok hd
  rw [active_iff hw h1, h2]
  simp only [List.forall_mem_append, List.mem_singleton, forall_eq]
  rw [path_holds hf hr hx rx hid l.given, and_assoc]
  refine and_congr Iff.rfl (and_congr ?_ Iff.rfl)
  unfold PosHere
  rw [← posPlace_eq]
  cases hrep : p.repeatable with
  | true =>
    simp only [if_true]
    exact countGe_holds rx hid ⟨l.given, l.positionals⟩ qs p.number
  | false =>
    simp only [Bool.false_eq_true, if_false]
    rw [countEq_holds rx hid ⟨l.given, l.positionals⟩ qs p.number]
    exact eq_comm

theorem script_parts {isRegex : Str → Bool} {root : Cmd} {ds : List FishDef} (hs : fishScript isRegex root = .ok ds)
    {qs : List Cmd} {x : Cmd} (hx : At root qs x) : ∃ r, fishOwnDefs isRegex qs x = .ok r := by
  unfold fishScript at hs
  simp only [bind, Except.bind] at hs
  cases h1 : mapE (fun e : List Cmd × Cmd => fishDefsOf isRegex e.1 e.2) (root.walk []) with
  | error e => rw [h1] at hs; simp at hs
  | ok dss =>
    obtain ⟨r, -, hr2⟩ := (mapE_mem h1).1 (qs, x) ((mem_walk_iff root qs x).mpr hx)
    unfold fishDefsOf at hr2
    simp only [bind, Except.bind] at hr2
    cases h2 : fishOwnDefs isRegex qs x with
    | error e => rw [h2] at hr2; simp at hr2
    | ok r0 => exact ⟨r0, rfl⟩

/-- **C69 (positionals, partial)** After words that reach a command, the `complete` command of a positional is active
exactly if it is a positional of that command whose place it is, and its condition is true. Missing: repeatable
positionals of commands with subcommands, see `C69_repeatable_before_subcommand`. -/
theorem C69_positional_partial (isRegex : Str → Bool) (rx : Bool → Str → Str → Bool) (hid : List Str → Bool) (root : Cmd)
    (hf : CleanFish root) (ds : List FishDef) (hs : fishScript isRegex root = .ok ds)
    (hw : ∀ qs x, At root qs x → ∀ p ∈ x.data.positionals, WhenSafe isRegex p.when_)
    (hrep : ∀ qs x, At root qs x → x.sub.isSome = true → ∀ p ∈ x.data.positionals, p.repeatable = false)
    (l : Line) (parents : List Cmd) (c : Cmd) (hr : Reached root l.positionals parents c) (p : Pos) :
    (∃ d ∈ ds, d.target = .positional p ∧ d.active (FishPrim.succeeds rx hid ⟨l.given, l.positionals⟩)) ↔
      p ∈ c.data.positionals ∧ PosHere parents p l.positionals.length ∧ WhenTrueOf isRegex rx l p.when_ := by
  have hatc := reached_at ((reached_iff hf.tree _ _ _).mp hr)
  constructor
  · rintro ⟨d, hd, ht, ha⟩
    obtain ⟨qs, x, d0, hx, hfrom, rfl⟩ := (fishScript_iff hs d).mp hd
    have htarget : ∀ nums, (d0.fix nums).target = d0.target := by
      intro nums; unfold FishDef.fix; split <;> rfl
    rw [htarget] at ht
    cases hfrom with
    | option o d ho h =>
      obtain ⟨r, -, -, h3, -⟩ := fishOption_ok h
      rw [h3] at ht; simp at ht
    | subcommands n hn => simp [fishSubcommands] at ht
    | positional p' d hp h =>
      obtain ⟨h1, h2, h3, h4, h5, -⟩ := fishPositional_ok h
      rw [h2] at ht
      simp only [FishTarget.positional.injEq] at ht
      subst ht
      rw [fix_plain h3 h4 h5, positional_active hf hr hx (hw _ _ hx _ hp) h] at ha
      obtain ⟨⟨rest, hrest⟩, hh, hwh⟩ := ha
      by_cases hne : rest = []
      · subst hne
        have := List.append_inj' hrest rfl
        simp at this
        obtain ⟨rfl, rfl⟩ := this
        exact ⟨hp, hh, hwh⟩
      · exfalso
        obtain ⟨y, rest', rfl⟩ := List.exists_cons_of_ne_nil hne
        obtain ⟨-, hch⟩ := at_step hatc hrest
        have hsome := hf.tree.slot _ _ hx (List.ne_nil_of_mem hch)
        have hsp : SubPlace qs x _ := ⟨hsome, rfl⟩
        have h6 := passed_place hf.tree hr hrest (by simp) hsp
        have h7 := le_highest x.data.positionals _ hp
        unfold PosHere at hh
        rw [hrep _ _ hx hsome _ hp] at hh
        simp only [Bool.false_eq_true, if_false] at hh
        unfold PosPlace at hh
        omega
  · rintro ⟨hp, hh, hwh⟩
    obtain ⟨r0, hr0⟩ := script_parts hs hatc
    obtain ⟨d0, hd0⟩ := (fishOwnDefs_iff hatc hr0).2.2 p hp
    obtain ⟨h1, h2, h3, h4, h5, -⟩ := fishPositional_ok hd0
    refine ⟨d0.fix (commandArgNums parents c), (fishScript_iff hs _).mpr ⟨parents, c, d0, hatc, .positional p d0 hp hd0, rfl⟩, ?_⟩
    rw [fix_plain h3 h4 h5]
    exact ⟨h2, (positional_active hf hr hatc (hw _ _ hatc _ hp) hd0).mpr ⟨⟨[], rfl⟩, hh, hwh⟩⟩

/-- **C69 (subcommands)** After words that reach a command, the names of subcommands are offered exactly at the place
of the subcommand, and they are the names and aliases of the subcommands of the command reached. -/
theorem C69_subcommands_partial (isRegex : Str → Bool) (rx : Bool → Str → Str → Bool) (hid : List Str → Bool) (root : Cmd)
    (hf : CleanFish root) (ds : List FishDef) (hs : fishScript isRegex root = .ok ds)
    (l : Line) (parents : List Cmd) (c : Cmd) (hr : Reached root l.positionals parents c) (names : List Str) :
    (∃ d ∈ ds, d.target = .subcommands names ∧ d.active (FishPrim.succeeds rx hid ⟨l.given, l.positionals⟩)) ↔
      SubPlace parents c l.positionals.length ∧ names = subNames c := by
  have hatc := reached_at ((reached_iff hf.tree _ _ _).mp hr)
  have hact : ∀ qs x n, At root qs x → x.sub = some n →
      ((fishSubcommands qs x n).active (FishPrim.succeeds rx hid ⟨l.given, l.positionals⟩) ↔
        SubPlace qs x l.positionals.length ∧ ∃ rest, parents ++ [c] = qs ++ x :: rest) := by
    intro qs x n hx hn
    have hsl : subSlot qs x = some (positionalIndex qs n) := by simp [subSlot, hn]
    have hsp := (subSlot_iff (hf.tree.numbered _ _ hx) _).mp hsl
    rw [active_iff (isRegex := isRegex) (w := none) (by intro t ht; simp at ht) (d := fishSubcommands qs x n) rfl]
    have hnone : WhenTrueOf isRegex rx l none := by intro t ht; simp at ht
    have hconds : (fishSubcommands qs x n).conds =
        FishCond.prim (.posCount .eq ((positionalNum qs n : Int) - 1)) :: fishPath qs x := rfl
    rw [hconds, List.forall_mem_cons, countEq_holds, path_holds hf hr hx rx hid l.given, and_iff_left hnone]
    refine and_congr ?_ Iff.rfl
    constructor
    · intro h; simp only at h; rw [h]; exact hsp
    · intro h; exact h.2.trans hsp.2.symm
  constructor
  · rintro ⟨d, hd, ht, ha⟩
    obtain ⟨qs, x, d0, hx, hfrom, rfl⟩ := (fishScript_iff hs d).mp hd
    have htarget : ∀ nums, (d0.fix nums).target = d0.target := by
      intro nums; unfold FishDef.fix; split <;> rfl
    rw [htarget] at ht
    cases hfrom with
    | option o d ho h =>
      obtain ⟨r, -, -, h3, -⟩ := fishOption_ok h
      rw [h3] at ht; simp at ht
    | positional p d hp h =>
      obtain ⟨h1, h2, -⟩ := fishPositional_ok h
      rw [h2] at ht; simp at ht
    | subcommands n hn =>
      rw [fix_plain rfl rfl rfl, hact qs x n hx hn] at ha
      obtain ⟨hsp, rest, hrest⟩ := ha
      have hnil : rest = [] := by
        by_cases hne : rest = []
        · exact hne
        · have := passed_place hf.tree hr hrest hne hsp
          omega
      subst hnil
      have := List.append_inj' hrest rfl
      simp at this
      obtain ⟨rfl, rfl⟩ := this
      refine ⟨hsp, ?_⟩
      simp only [fishSubcommands, FishTarget.subcommands.injEq] at ht
      exact ht.symm
  · rintro ⟨hsp, rfl⟩
    obtain ⟨n, hn⟩ := Option.isSome_iff_exists.mp hsp.1
    refine ⟨(fishSubcommands parents c n).fix (commandArgNums parents c),
      (fishScript_iff hs _).mpr ⟨parents, c, _, hatc, .subcommands n hn, rfl⟩, ?_⟩
    rw [fix_plain rfl rfl rfl]
    exact ⟨rfl, (hact parents c n hatc hn).mpr ⟨hsp, [], rfl⟩⟩

/-- **C69 (subcommands)** Every name that is offered leads to a subcommand of the command reached. -/
theorem C69_subcommands_lead (root : Cmd) (ps : List Str) (parents : List Cmd) (c : Cmd) (hr : Reached root ps parents c)
    (hsp : SubPlace parents c ps.length) (w : Str) (hw : w ∈ subNames c) :
    ∃ d ∈ c.children, Reached root (ps ++ [w]) (parents ++ [c]) d := by
  unfold subNames at hw
  obtain ⟨d, hd, hw⟩ := List.mem_flatMap.mp hw
  refine ⟨d, hd, .sub hr hsp hd ?_⟩
  rcases List.mem_cons.mp hw with rfl | hw
  · exact .inl rfl
  · exact .inr (.inl hw)

/-! ## Where the script is wrong -/

/-- `FishDef.active` as a test. -/
def FishDef.isActive (v : FishPrim → Bool) (d : FishDef) : Bool :=
  match getConditions d.conds d.when_ with
  | .error _ => false
  | .ok texts => texts.all (fun t => decide (run v t = some true))

theorem isActive_iff (v : FishPrim → Bool) (d : FishDef) : d.isActive v = true ↔ d.active v := by
  unfold FishDef.isActive FishDef.active
  cases h : getConditions d.conds d.when_ with
  | error e => simp
  | ok texts => simp

/-- The option strings that the script offers after some words, for trees without hidden options. -/
def fishOffered (root : Cmd) (words : List Str) : List Str :=
  match fishScript (fun _ => true) root with
  | .error _ => []
  | .ok ds =>
    let p := fishQueryOf root words
    (ds.filter (FishDef.isActive (FishPrim.succeeds (fun _ _ _ => false) (fun _ => false) ⟨p.having, p.positionals⟩))).flatMap FishDef.offers

theorem mem_fishOffered (root : Cmd) (words : List Str) (w : Str) :
    w ∈ fishOffered root words ↔ ∃ ds, fishScript (fun _ => true) root = .ok ds ∧ ∃ d ∈ ds,
      d.active (FishPrim.succeeds (fun _ _ _ => false) (fun _ => false)
        ⟨(fishQueryOf root words).having, (fishQueryOf root words).positionals⟩) ∧ w ∈ d.offers := by
  unfold fishOffered
  cases h : fishScript (fun _ => true) root with
  | error e => simp
  | ok ds =>
    simp only [List.mem_flatMap, List.mem_filter, Except.ok.injEq, exists_eq_left']
    constructor
    · rintro ⟨d, ⟨h1, h2⟩, h3⟩; exact ⟨d, h1, (isActive_iff _ _).mp h2, h3⟩
    · rintro ⟨d, h1, h2, h3⟩; exact ⟨d, ⟨h1, (isActive_iff _ _).mpr h2⟩, h3⟩

/-- A program with a positional before its subcommands, which does not pass its options on: its option `-v` is not
offered before the positional, only between it and the subcommand. (The condition is `==` where `<=` is meant.) -/
theorem C68_before_positional :
    let run : Cmd := .node { prog := S "run", inheritOptions := .val false } none []
    let root : Cmd := .node { prog := S "prog", inheritOptions := .val false, positionals := [{ number := 1 }], options :=
      [{ strings := [S "-v"], repeatable := .val false }] } (some 2) [run]
    fishOffered root [] = [] ∧ fishOffered root [S "x"] = [S "-v"] := by decide +kernel

/-- A command argument of one subcommand hides the options of the program after another: `prog run x -v` is not
completed, because `prog exec COMMAND ARGS` takes a command. -/
theorem C68_sibling_argument :
    let exec : Cmd := .node { prog := S "exec", inheritOptions := .val false, positionals := [{ number := 1, complete := [.str (S "command")] },
      { number := 2, complete := [.str (S "command_arg")], repeatable := true }] } none []
    let run : Cmd := .node { prog := S "run", inheritOptions := .val false, positionals := [{ number := 1 }, { number := 2 }] } none []
    let root : Cmd := .node { prog := S "prog", inheritOptions := .val true, options :=
      [{ strings := [S "-v"], repeatable := .val false }] } (some 1) [exec, run]
    fishOffered root [S "run"] = [S "-v"] ∧ fishOffered root [S "run", S "x"] = [] := by decide +kernel

/-- An alias that equals the name: the options of the subcommand are offered before the subcommand is typed. -/
theorem C68_alias_twice :
    let run : Cmd := .node { prog := S "run", aliases := [S "run"], inheritOptions := .val false, options :=
      [{ strings := [S "-f"], repeatable := .val false }] } none []
    let root : Cmd := .node { prog := S "prog", inheritOptions := .val false } (some 1) [run]
    fishOffered root [] = [S "-f"] := by decide +kernel

/-- The option `---x` is offered as `--x`. -/
theorem C68_three_dashes :
    let root : Cmd := .node { prog := S "prog", inheritOptions := .val false, options :=
      [{ strings := [S "---x"], repeatable := .val false }] } none []
    fishOffered root [] = [S "--x"] := by decide +kernel

/-- A final option of a subcommand does not end the options that are inherited: after `prog run --help`, `-v` of the
program is offered. -/
theorem C68_final_below :
    let run : Cmd := .node { prog := S "run", inheritOptions := .val false, options :=
      [{ strings := [S "--help"], final := true, repeatable := .val false }] } none []
    let root : Cmd := .node { prog := S "prog", inheritOptions := .val true, options :=
      [{ strings := [S "-v"], repeatable := .val false }] } (some 1) [run]
    fishOffered root [S "run", S "--help"] = [S "-v"] := by decide +kernel

/-- The argument of an inherited option is not completed: after `prog run --file`, the parser counts `--file` as given
(see `C58_global_option_lost`), so its `complete` command is not active. After `prog --file` it is. -/
theorem C68_argument_lost :
    let run : Cmd := .node { prog := S "run", inheritOptions := .val false } none []
    let root : Cmd := .node { prog := S "prog", inheritOptions := .val true, options :=
      [{ strings := [S "--file"], complete := some [.str (S "file")], repeatable := .val false }] } (some 1) [run]
    fishOffered root [S "run", S "--file"] = [] ∧ fishOffered root [S "--file"] = [S "--file"] := by decide +kernel

/-- A repeatable positional before a subcommand is still completed in the subcommand: in the program with the
positionals FILE... and the subcommand `run`, the completer of FILE is active after `prog a run`. -/
theorem C69_repeatable_before_subcommand :
    let run : Cmd := .node { prog := S "run", inheritOptions := .val false } none []
    let p : Pos := { number := 1, repeatable := true, complete := [.str (S "file")] }
    let root : Cmd := .node { prog := S "prog", inheritOptions := .val false, positionals := [p] } (some 2) [run]
    Reached root [S "a", S "run"] [root] run ∧
    ∃ d, fishPositional (fun _ => true) [] root p = .ok d ∧ d.target = .positional p ∧
      d.active (FishPrim.succeeds (fun _ _ _ => false) (fun _ => false) ⟨[], [S "a", S "run"]⟩) := by
  intro run p root
  refine ⟨?_, _, rfl, rfl, ?_⟩
  · have h1 : Reached root ([] ++ [S "a"]) [] root := Reached.word _ Reached.start (by decide)
    exact Reached.sub (c := root) (d := run) h1 (by decide) (by simp [root, Cmd.children]) (Or.inl rfl)
  · rw [← isActive_iff]; decide +kernel

/-- A case of the theorems: a program with the options `-v`, `--quiet` and `--loud`, of which the latter two exclude each
other, and the subcommand `run` with alias `r`, the option `--out FILE` and the option `--force`, which makes sense
only with `--out`. After `prog --quiet r --out x`, the options `-v` and `--force` are offered, and the positional of
`run` is completed; after `prog`, all three options of the program and the subcommands `run` and `r`. -/
theorem C68_example :
    let run : Cmd := .node { prog := S "run", aliases := [S "r"], inheritOptions := .val false, positionals := [{ number := 1 }], options :=
      [{ strings := [S "--out"], complete := some [.str (S "file")], repeatable := .val false },
       { strings := [S "--force"], when_ := some (S "has_option --out"), repeatable := .val false }] } none []
    let root : Cmd := .node { prog := S "prog", inheritOptions := .val true, options :=
      [{ strings := [S "-v"], repeatable := .val true }, { strings := [S "--quiet"], groups := some [S "g"], repeatable := .val false },
       { strings := [S "--loud"], groups := some [S "g"], repeatable := .val false }] } (some 1) [run]
    let its := [Item.word (S "--quiet"), .pos (S "r"), .sep (S "--out") (S "x")]
    CleanFish root ∧ PlainTree root ∧ (∃ ds, fishScript (fun _ => true) root = .ok ds) ∧
    (∀ qs x, At root qs x → ∀ o ∈ x.data.options, WhenSafe (fun _ => true) o.when_) ∧
    ItemsValid (fishKindAt (definedOptionTypes root).subcommands (fishTable root)) [] its ∧
    Reached root (lineOf its .done).positionals [root] run ∧ FinalsAbove (lineOf its .done) [root] run ∧
    NoOtherArguments root [root] run (lineOf its .done).positionals.length ∧
    fishOffered root (its.flatMap Item.words ++ Ending.done.words) = [S "-v", S "--force"] ∧
    fishOffered root [] = [S "-v", S "--quiet", S "--loud"] := by
  intro run root its
  have hall : ∀ parents c, At root parents c → (parents = [] ∧ c = root) ∨ (parents = [root] ∧ c = run) := by
    intro parents c h
    induction h with
    | root => exact Or.inl ⟨rfl, rfl⟩
    | @child parents c d _ hd ih =>
      rcases ih with ⟨rfl, rfl⟩ | ⟨rfl, rfl⟩
      · right; exact ⟨rfl, by simpa [root, Cmd.children] using hd⟩
      · simp [run, Cmd.children] at hd
  have hopt : ∀ parents c, At root parents c → ∀ o ∈ c.data.options, o.strings ≠ [] ∧ o.final = false ∧
      ∀ s ∈ o.strings, (isValidOptionString s = true ∧ '=' ∉ s) ∧ s.take 3 ≠ ['-', '-', '-'] := by
    intro parents c h
    rcases hall _ _ h with ⟨rfl, rfl⟩ | ⟨rfl, rfl⟩ <;> decide +kernel
  have hnoarg : ∀ parents c, At root parents c → ∀ p ∈ c.data.positionals, ¬ IsCommandArg p := by
    intro parents c h p hp
    rcases hall _ _ h with ⟨rfl, rfl⟩ | ⟨rfl, rfl⟩
    · simp [root, Cmd.data] at hp
    · simp [run, Cmd.data] at hp; subst hp; unfold IsCommandArg; decide
  have hsome : S "-v" ∈ fishOffered root [] := by decide +kernel
  have hscript : ∃ ds, fishScript (fun _ => true) root = .ok ds := by
    obtain ⟨ds, h, -⟩ := (mem_fishOffered _ _ _).mp hsome
    exact ⟨ds, h⟩
  refine ⟨⟨⟨?_, ?_, ?_, ?_, ?_⟩, ?_, ?_, ?_, ?_⟩, ?_, hscript, ?_, ?_, ?_, ?_, ?_, by decide +kernel, by decide +kernel⟩
  · intro parents c h d hd e he w _ _
    rcases hall _ _ h with ⟨rfl, rfl⟩ | ⟨rfl, rfl⟩
    · simp [root, Cmd.children] at hd he; rw [hd, he]
    · simp [run, Cmd.children] at hd
  · intro parents c h d hd
    rcases hall _ _ h with ⟨rfl, rfl⟩ | ⟨rfl, rfl⟩
    · simp [root, Cmd.children] at hd; subst hd; decide
    · simp [run, Cmd.children] at hd
  · intro parents c h
    rcases hall _ _ h with ⟨rfl, rfl⟩ | ⟨rfl, rfl⟩ <;> decide
  · intro parents c h n hn
    rcases hall _ _ h with ⟨rfl, rfl⟩ | ⟨rfl, rfl⟩
    · simp [root, Cmd.sub] at hn; subst hn; decide
    · simp [run, Cmd.sub] at hn
  · intro parents c h hne
    rcases hall _ _ h with ⟨rfl, rfl⟩ | ⟨rfl, rfl⟩
    · rfl
    · simp [run, Cmd.children] at hne
  · intro parents c h
    rcases hall _ _ h with ⟨rfl, rfl⟩ | ⟨rfl, rfl⟩ <;> decide
  · intro parents c h o ho
    obtain ⟨h1, -, h2⟩ := hopt _ _ h o ho
    refine ⟨h1, fun s hs => ⟨(isValidOptionString_iff s).mp (h2 s hs).1.1, ?_⟩⟩
    rintro r rfl
    exact (h2 _ hs).2 rfl
  · intro parents c h d hd
    rcases hall _ _ h with ⟨rfl, rfl⟩ | ⟨rfl, rfl⟩
    · simp [root, Cmd.children] at hd; subst hd
      exact ⟨by decide, by decide, fun h => by revert h; decide⟩
    · simp [run, Cmd.children] at hd
  · intro parents c h hs
    rcases hall _ _ h with ⟨rfl, rfl⟩ | ⟨rfl, rfl⟩
    · intro _; rfl
    · simp [run, Cmd.sub] at hs
  · rintro s ⟨parents, c, h, o, ho, hs⟩
    obtain ⟨-, -, h2⟩ := hopt _ _ h o ho
    exact ⟨(isValidOptionString_iff s).mp (h2 s hs).1.1, (h2 s hs).1.2⟩
  · intro parents c h o ho t ht
    have hforce : t = S "has_option --out" := by
      rcases hall _ _ h with ⟨rfl, rfl⟩ | ⟨rfl, rfl⟩
      · simp [root, Cmd.data] at ho
        rcases ho with rfl | rfl | rfl <;> simp at ht
      · simp [run, Cmd.data] at ho
        rcases ho with rfl | rfl
        · simp at ht
        · simpa using ht.symm
    subst hforce
    refine ⟨by decide, ?_⟩
    intro ts hts
    have : (parseWhen (fun _ => true) (S "has_option --out")).toOption = some [.cmd (.hasOption [S "--out"])] := by decide +kernel
    rw [hts] at this
    simp only [Except.toOption, Option.some.injEq] at this
    subst this
    exact ⟨⟨_, .pipe (.cmd _)⟩, by intro c hc; simp at hc; subst hc; trivial⟩
  · refine ⟨⟨Or.inl ⟨⟨_, _, rfl⟩, by decide⟩, Or.inl (by decide +kernel)⟩, ?_, ⟨Or.inl ⟨⟨_, _, rfl⟩, by decide⟩, by decide +kernel⟩, trivial⟩
    intro c cs h
    simp [S] at h
  · exact Reached.sub (c := root) (d := run) Reached.start (by decide) (by simp [root, Cmd.children]) (Or.inr (Or.inl (by decide)))
  · intro e he f hf
    have hat : At root [root] run := At.child (parents := []) At.root (by simp [root, Cmd.children])
    exfalso
    rcases hf with ⟨h1, h2 | ⟨p, hp, h2⟩⟩
    · rw [(hopt _ _ hat f h2).2.1] at h1; cases h1
    · simp at hp; subst hp
      rw [(hopt _ _ At.root f h2).2.1] at h1; cases h1
  · intro e _ _ rs y hy _ _ p hp hca
    exact absurd hca (hnoarg _ _ hy p hp)

end CC
