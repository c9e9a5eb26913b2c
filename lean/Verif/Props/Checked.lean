import Verif.Props.Revalidate
import Verif.Spec.CheckedSpec
/-!
# C74: only documented command lines reach the generators
-/

namespace CC

theorem haveDefs_valid {vs : List Val} {qs : List (List Str × List (Key × Val))} (h : HaveDefs vs qs) :
    ∀ d, .dict d ∈ vs → ∀ s, getKey d (S "prog") = some (.str s) → validProg s = true := by
  induction h with
  | nil => simp
  | cons d s vs ps hk hv _ ih =>
    intro e he s' hs'
    rcases List.mem_cons.1 he with he | he
    · cases he
      rw [hk] at hs'
      cases hs'
      exact hv
    · exact ih e he s' hs'

/-- The second validation implies that the paths are valid names. -/
theorem validated_paths (env : ValEnv) (c : Cmd) (h : validateCommandlines env c = .ok ()) (a : List Nat) (p : List Str)
    (hp : c.namesAt a = some p) : validProg (joinWith [' '] p) = true := by
  unfold validateCommandlines at h
  rw [definitionsOf_eq, validate_iff] at h
  obtain ⟨qs, hd, _⟩ := h
  obtain ⟨x, hx⟩ := at_of_namesAt c a p hp
  have hm : (p, x.data) ∈ pathsOf [] c := (mem_pathsOf c [] _ _).2 ⟨a, x, p, hx, hp, rfl, rfl⟩
  exact haveDefs_valid hd (docOf (p, x.data)) (List.mem_map.2 ⟨_, hm, rfl⟩) _ rfl

theorem noBlank_path (c : Cmd) (h : NoBlankNames c) (a : List Nat) (p : List Str) (hp : c.namesAt a = some p) :
    ∀ n ∈ p, ' ' ∉ n := by
  induction a generalizing c p with
  | nil =>
    cases c with
    | node d s ch =>
      simp only [Cmd.namesAt, Option.some.injEq] at hp
      subst hp
      simp only [List.mem_singleton, forall_eq]
      exact h [] _ rfl
  | cons i is ih =>
    cases c with
    | node d s ch =>
      simp only [Cmd.namesAt] at hp
      cases hi : ch[i]? with
      | none => rw [hi] at hp; cases hp
      | some ci =>
        rw [hi] at hp
        simp only [Option.map_eq_some_iff] at hp
        obtain ⟨q, hq, rfl⟩ := hp
        intro n hn
        rcases List.mem_cons.1 hn with rfl | hn
        · exact h [] _ rfl
        · refine ih ci (fun a x hx => h (i :: a) x ?_) q hq n hn
          simp only [Cmd.at, hi]
          exact hx

theorem afterCommand_posCtx (ps : List Pos) (p : Pos) (env : ValEnv) (hps : ∀ q ∈ ps, 1 ≤ q.number)
    (h : Doc.AfterCommand (posCtx ps p)) : FollowsCommand ps p := by
  obtain ⟨e, v, n, l, q, m, h1, h2, h3, h4, h5, h6, h7, h8, ⟨i, hi, hi'⟩, h9⟩ := h
  have a5 : (posCtx ps p).positional = some (positionalEntries p) := rfl
  rw [a5] at h1
  cases h1
  have a1 : getKey (positionalEntries p) (S "number") = some (.int p.number) := rfl
  have a2 : getKey (positionalEntries p) (S "repeatable") = some (.bool p.repeatable) := rfl
  have a4 : getKey (posCtx ps p).definition (S "positionals") =
    some (.list (ps.map (fun q => .dict (positionalEntries q)))) := rfl
  rw [a1] at h5
  cases h5
  rw [a2] at h2
  cases h2
  rw [a4] at h6
  cases h6
  obtain ⟨q', hq', he⟩ := List.mem_map.1 h7
  cases he
  have b1 : getKey (positionalEntries q') (S "number") = some (.int q'.number) := rfl
  have b2 : getKey (positionalEntries q') (S "complete") = some (.list q'.complete) := rfl
  rw [b1] at h8
  cases h8
  cases hi
  rw [b2] at h9
  refine ⟨by cases hr : p.repeatable with | true => rfl | false => rw [hr] at h4; exact absurd rfl h4, q', hq', ?_, ?_⟩
  · rw [integer_numOf] at hi'
    simp only [numOf, Option.some.injEq] at hi'
    omega
  · rcases h9 with ⟨rest, hr⟩ | ⟨d, hd⟩
    · simp only [Option.some.injEq, Val.list.injEq] at hr
      exact ⟨rest, hr⟩
    · cases hd

theorem accepted_checked (env : ValEnv) (path : Str) (x : Cmd) (h : CmdAccepted env path x.data) (hr : RepeatAccepted x) :
    CommandChecked env x := by
  refine ⟨fun o ho => ?_, fun p hp => ?_, hr.subcommands⟩
  · have := h.options o ho
    refine ⟨⟨this.strings.1, fun s hs => (isValidOptionString_iff s).1 (this.strings.2 s hs)⟩, ?_, ?_, ?_, this.when_⟩
    · rintro (h1 | h1)
      · exact this.metavar h1
      · exact this.optionalArg h1
    · intro h1 h2
      exact this.hidden ⟨h2, h1⟩
    · intro c hc
      obtain ⟨t, ht⟩ := this.complete c hc
      refine Completer.mono (fun n hn h0 => ?_) (complete_sound env _ [] c t ht)
      obtain ⟨e, v, m, l, q, w, h1, _⟩ := hn h0
      cases h1
  · have := h.positionals p hp
    obtain ⟨t, ht⟩ := this.complete
    refine ⟨this.number, ?_, this.when_, fun h1 q hq => hr.last p hp q hq h1⟩
    exact Completer.mono (fun n hn h0 => afterCommand_posCtx _ _ env (fun q hq => (h.positionals q hq).number) (hn h0))
      (complete_sound env _ [] _ t ht)

/-- C74: if a command line that was built through the API (and so from any source) can be prepared for the generators,
the program and its direct subcommands are as documented: option strings, completers with all the completers inside
them, conditions, the place of repeatable positionals and of `command_arg`. Missing: the commands below them, which
are not looked at (`C74_deep`), and names with blanks (`C74_blank_name`). -/
theorem C74_checked_partial (env : ValEnv) (cfg : Config) (c c' : Cmd) (hb : Api none c) (hn : NoBlankNames c)
    (h : enhance env.isRegex (validateCommandlines env) cfg c = .ok c') (a : List Nat) (x : Cmd)
    (hx : c'.at a = some x) (hl : a.length ≤ 1) : CommandChecked env x := by
  have hval : validateCommandlines env c' = .ok () := by
    unfold enhance at h
    simp only [except_bind_ok, except_unit_bind_ok, Except.ok.injEq] at h
    obtain ⟨_, _, _, _, _, h2, h3⟩ := h
    subst h3
    exact h2
  have he := enhance_ok _ _ cfg c c' hb h
  have hprog : ∀ d, (applyConfig cfg d).prog = d.prog := fun d => (applyConfig_fields cfg d).1
  have hnames : ∀ (b : List Nat) (y : Cmd), c'.at b = some y → ∃ z, c.at b = some z ∧ y.data.prog = z.data.prog ∧
      y.children.map (fun w => w.data.prog) = z.children.map (fun w => w.data.prog) := by
    intro b y hy
    rw [he, mapData_at, renumber_at, Option.map_map, Option.map_eq_some_iff] at hy
    obtain ⟨z, hz, rfl⟩ := hy
    refine ⟨z, hz, ?_, ?_⟩
    · simp only [Function.comp_apply, mapData_data, hprog]
      cases z; rfl
    · simp only [Function.comp_apply, mapData_children]
      cases z with
      | node d s ch =>
        simp only [Cmd.renumber, Cmd.children, List.map_map]
        have : ∀ l, Cmd.renumberList l = l.map Cmd.renumber := by
          intro l
          induction l with
          | nil => rfl
          | cons q l ih => simp [Cmd.renumberList, ih]
        rw [this, List.map_map]
        apply List.map_congr_left
        intro q _
        simp only [Function.comp_apply, mapData_data, hprog]
        cases q; rfl
  have hu : UniqueNames c' := by
    intro b y hy
    obtain ⟨z, hz, _, h2⟩ := hnames b y hy
    rw [h2]
    exact C20_unique_names c hb b z hz
  have hnb : NoBlankNames c' := by
    intro b y hy
    obtain ⟨z, hz, h1, _⟩ := hnames b y hy
    rw [h1]
    exact hn b z hz
  have hv : PathsValid c' := fun b p hp => ⟨validated_paths env c' hval b p hp, noBlank_path c' hnb b p hp⟩
  obtain ⟨p, hp, _⟩ := namesAt_isSome c' a x hx
  obtain ⟨g1, g2⟩ := (validateCommandlines_iff env c' hu hv).1 hval a x p hx hp hl
  exact accepted_checked env _ x g1 g2

theorem renumber_data (c : Cmd) : c.renumber.data = c.data := by cases c; rfl

theorem renumber_children (c : Cmd) : c.renumber.children = c.children.map Cmd.renumber := by
  cases c with
  | node d s ch =>
    have : ∀ l, Cmd.renumberList l = l.map Cmd.renumber := by
      intro l
      induction l with
      | nil => rfl
      | cons q l ih => simp [Cmd.renumberList, ih]
    simp only [Cmd.renumber, Cmd.children, this]

theorem renumber_namesAt (c : Cmd) (a : List Nat) : c.renumber.namesAt a = c.namesAt a := by
  induction a generalizing c with
  | nil => cases c; rfl
  | cons i is ih =>
    have h := renumber_children c
    cases c with
    | node d s ch =>
      simp only [Cmd.renumber, Cmd.children] at h
      simp only [Cmd.renumber, Cmd.namesAt, h, List.getElem?_map]
      cases ch[i]? with
      | none => rfl
      | some ci => simp [ih]

/-- C74, the other direction: a command line that was built through the API, has valid names, and whose program and
direct subcommands are as documented, is not rejected, if the configuration makes no hidden option repeatable.
Missing: completers with `none` and `command_arg` inside. -/
theorem C74_accepts_partial (env : ValEnv) (cfg : Config) (c : Cmd) (hb : Api none c) (hn : NoBlankNames c)
    (hv : ∀ a p, c.namesAt a = some p → validProg (joinWith [' '] p) = true)
    (hcheck : ∀ a x, c.at a = some x → a.length ≤ 1 → CommandChecked env x ∧ SimplyCompleted env x)
    (halias : ∀ a x, c.at a = some x → ∀ s ∈ x.data.aliases, Doc.NonBlank (.str s))
    (hwraps : ∀ a x w, c.at a = some x → x.data.wraps = some w → a = [] ∧ Doc.NonBlank (.str w))
    (hwhen : ∀ a x, c.at a = some x → ConditionsParse env.isRegex x.data)
    (hcfg : ∀ a x, c.at a = some x → ∀ o ∈ x.data.options, ¬ (RepeatableUnder cfg o ∧ HiddenUnder cfg o)) :
    ∃ c', enhance env.isRegex (validateCommandlines env) cfg c = .ok c' := by
  have hok := api_ok hb
  have hu := C20_unique_names c hb
  let r := c.renumber.mapData (applyConfig cfg)
  have hprog : ∀ d, (applyConfig cfg d).prog = d.prog := fun d => (applyConfig_fields cfg d).1
  have hat : ∀ b y, r.at b = some y ↔ ∃ z, c.at b = some z ∧ y = z.renumber.mapData (applyConfig cfg) := by
    intro b y
    simp only [r, mapData_at, renumber_at, Option.map_map, Option.map_eq_some_iff]
    constructor
    · rintro ⟨z, hz, rfl⟩; exact ⟨z, hz, rfl⟩
    · rintro ⟨z, hz, rfl⟩; exact ⟨z, hz, rfl⟩
  have hna : ∀ b, r.namesAt b = c.namesAt b := fun b => by
    simp only [r]
    rw [mapData_namesAt _ hprog, renumber_namesAt]
  have hu' : UniqueNames r := by
    intro b y hy
    obtain ⟨z, hz, rfl⟩ := (hat b y).1 hy
    have := hu b z hz
    rw [mapData_children, renumber_children, List.map_map, List.map_map]
    have he : ((fun y : Cmd => y.data.prog) ∘ Cmd.mapData (applyConfig cfg)) ∘ Cmd.renumber = fun y => y.data.prog := by
      funext z
      simp only [Function.comp_apply, mapData_data, hprog, renumber_data]
    rw [he]
    exact this
  have hv' : PathsValid r := by
    intro b p hp
    rw [hna] at hp
    exact ⟨hv b p hp, noBlank_path c hn b p hp⟩
  have hval : validateCommandlines env r = .ok () := by
    rw [validateCommandlines_iff env r hu' hv']
    intro b y p hy hp hl
    rw [hna] at hp
    obtain ⟨z, hz, rfl⟩ := (hat b y).1 hy
    obtain ⟨hc, hs⟩ := hcheck b z hz hl
    have hzok := ok_at c hok b z hz
    rw [ok_iff] at hzok
    obtain ⟨⟨k1, k2, k3, _, _⟩, _⟩ := hzok
    simp only [CmdData.check, Bool.and_eq_true, List.all_eq_true] at k1
    have nosp : ∀ s : Str, (!containsSpace s) = true → Doc.NoSpaces (.str s) := by
      intro s h
      simp only [containsSpace, Bool.not_eq_true', Bool.or_eq_false_iff, List.contains_eq_mem, decide_eq_false_iff_not] at h
      exact ⟨s, rfl, h.1.1, h.1.2, h.2⟩
    have hacc : CmdAccepted env (joinWith [' '] p) z.data := by
      refine ⟨hv b p hp, fun s hs' => ⟨halias b z hz s hs', nosp s (k1.2 s hs')⟩, fun w hw => ?_, fun o ho => ?_,
        fun q hq => ?_⟩
      · obtain ⟨rfl, h2⟩ := hwraps b z w hz hw
        have k := k1.1
        rw [hw] at k
        simp only [Bool.and_eq_true] at k
        refine ⟨h2, nosp w k.2, ?_⟩
        have hroot : p = [c.data.prog] := by
          cases c
          simp only [Cmd.namesAt, Option.some.injEq] at hp
          exact hp.symm
        have hvp := hv [] p hp
        have hbl := hn [] c (by cases c; rfl)
        subst hroot
        simp only [joinWith] at hvp ⊢
        simp only [validProg, Bool.and_eq_true, Bool.not_eq_true', bne_iff_ne] at hvp
        obtain ⟨⟨⟨⟨⟨_, _⟩, _⟩, h4⟩, h5⟩, _⟩ := hvp
        exact ⟨_, rfl, hbl, by simpa using h4, by simpa using h5⟩
      · have co := hc.options o ho
        have ck := k2 o ho
        simp only [Opt.check, Bool.and_eq_true] at ck
        refine ⟨⟨co.strings.1, fun s hs => (isValidOptionString_iff s).2 (co.strings.2 s hs)⟩,
          fun h => co.argument (.inl h), fun h => co.argument (.inr h), fun h => co.hidden h.2 h.1, fun l hl => ?_,
          co.condition, fun s hs => ?_⟩
        · exact (C35_exact_partial env _ l).1 (hs.options o ho l hl)
        · have := ck.1.1.1.2
          rw [hs] at this
          exact this
      · have cp := hc.positionals q hq
        refine ⟨cp.number, ?_, cp.condition, fun s hs => ?_⟩
        · rcases hs.positionals q hq with h0 | h0
          · rw [h0]
            exact ⟨[], by simp [checkComplete, checkSimple, voidCompleters, checkNone, need, bind, Except.bind, S]⟩
          · exact (C35_exact_partial env _ _).1 h0
        · have := k3 q hq
          unfold Pos.init at this
          split at this
          · rename_i hh
            rw [hs] at hh
            simp only [Bool.and_eq_true] at hh
            exact hh.1
          · cases this
    rw [mapData_data, renumber_data]
    refine ⟨(cmdAccepted_apply env cfg _ _ hacc).2 (hcfg b z hz), repeatAccepted_apply cfg _ ⟨?_, ?_⟩⟩
    · rw [renumber_data]
      exact fun p hp q hq hr => (hc.positionals p hp).last hr q hq
    · rw [renumber_data, renumber_children]
      exact fun hne => hc.subcommands (fun h0 => hne (by simp [h0]))
  have hw : checkWhens env.isRegex (r.all.flatMap (fun x => whensOf x.data)) = .ok () := by
    rw [checkWhens_iff]
    simp only [List.mem_flatMap, mem_all_at]
    rintro w ⟨y, ⟨b, hy⟩, hm⟩
    obtain ⟨z, hz, rfl⟩ := (hat b y).1 hy
    rw [mapData_data, renumber_data, whensOf_apply] at hm
    cases hdis : cfg.disabledWhen with
    | true => simp [hdis] at hm
    | false =>
      simp only [hdis, Bool.false_eq_true, if_false] at hm
      obtain ⟨h1, h2⟩ := (mem_whensOf _ _).1 hm
      exact hwhen b z hz w h1 h2
  refine ⟨r, ?_⟩
  unfold enhance
  simp only [r] at hw hval ⊢
  simp only [copy_ok c hok, bind, Except.bind, hw, hval]

/-- An option whose completer is a number instead of a name. -/
def oddOption : Opt := { strings := [S "-x"], complete := some [.int 3] }

theorem oddOption_odd (env : ValEnv) : ¬ OptionChecked env oddOption := by
  intro h
  have := h.complete _ rfl
  cases this

/-- A command with it. -/
def oddCommand (n : Str) : Cmd := .node { prog := n, options := [oddOption] } none []

theorem api_odd (n : Str) : Api none (oddCommand n) :=
  Api.step (Api.new (d := { prog := n }) rfl rfl rfl) (Api.addOption (o := oddOption) (o' := oddOption) rfl)

/-- Commands below the direct subcommands are not looked at. -/
theorem C74_deep : ∃ c c', Api none c ∧ NoBlankNames c ∧
    enhance sampleEnv.isRegex (validateCommandlines sampleEnv) {} c = .ok c' ∧
    ∃ x, c'.at [0, 0] = some x ∧ ¬ CommandChecked sampleEnv x := by
  have b0 : Api none (.node { prog := S "b" } none []) := Api.new rfl rfl rfl
  have b1 := Api.step b0 (Api.addSubcommands rfl)
  have b2 := Api.step b1 (Api.addSubcommand (c := oddCommand (S "c")) (api_odd _) rfl)
  have a0 : Api none (.node { prog := S "a" } none []) := Api.new rfl rfl rfl
  have a1 := Api.step a0 (Api.addSubcommands rfl)
  have a2 := Api.step a1 (Api.addSubcommand b2 rfl)
  refine ⟨_, _, a2, ?_, rfl, _, rfl, ?_⟩
  · intro a x hx
    have hm := (mem_all_at _ x).2 ⟨a, hx⟩
    simp only [Cmd.all, Cmd.allList, oddCommand, List.append_nil, List.nil_append, List.mem_cons, List.not_mem_nil,
      or_false] at hm
    rcases hm with rfl | rfl | rfl <;> decide
  · intro h
    have := h.options (applyOpt {} oddOption) (by simp [Cmd.mapData, Cmd.renumber, Cmd.data, applyConfig, oddCommand])
    have := this.complete _ rfl
    cases this

/-- A subcommand whose name has a blank in it is taken for a subcommand of another one. -/
theorem C74_blank_name : ∃ c c', Api none c ∧
    enhance sampleEnv.isRegex (validateCommandlines sampleEnv) {} c = .ok c' ∧
    ∃ x, c'.at [1] = some x ∧ ¬ CommandChecked sampleEnv x := by
  have b0 : Api none (.node { prog := S "b" } none []) := Api.new rfl rfl rfl
  have a0 : Api none (.node { prog := S "a" } none []) := Api.new rfl rfl rfl
  have a1 := Api.step a0 (Api.addSubcommands rfl)
  have a2 := Api.step a1 (Api.addSubcommand b0 rfl)
  have a3 := Api.step a2 (Api.addSubcommand (c := oddCommand (S "b c")) (api_odd _) rfl)
  refine ⟨_, _, a3, rfl, _, rfl, ?_⟩
  intro h
  have := h.options (applyOpt {} oddOption) (by simp [Cmd.mapData, Cmd.renumber, Cmd.data, applyConfig, oddCommand])
  have := this.complete _ rfl
  cases this

/-- The hypotheses of `C74_checked_partial` are met by a command with an option with a file completer, two positionals, of
which the second is repeatable, and a subcommand below. -/
example : ∃ c, Api none c ∧ NoBlankNames c ∧ c.children.length = 1 ∧ c.data.options.length = 1 ∧
    ∃ c', enhance sampleEnv.isRegex (validateCommandlines sampleEnv) {} c = .ok c' := by
  have b0 : Api none (.node { prog := S "b" } none []) := Api.new rfl rfl rfl
  have b1 := Api.step b0 (Api.addPositional (p := { number := 1, complete := [.str (S "command")] })
    (p' := { number := 1, complete := [.str (S "command")] }) rfl)
  have b2 := Api.step b1 (Api.addPositional (p := { number := 2, repeatable := true, complete := [.str (S "command_arg")] })
    (p' := { number := 2, repeatable := true, complete := [.str (S "command_arg")] }) rfl)
  have a0 : Api none (.node { prog := S "a" } none []) := Api.new rfl rfl rfl
  have a1 := Api.step a0 (Api.addOption (o := { strings := [S "-f"], complete := some [.str (S "file")] })
    (o' := { strings := [S "-f"], complete := some [.str (S "file")] }) rfl)
  have a2 := Api.step a1 (Api.addSubcommands rfl)
  have a3 := Api.step a2 (Api.addSubcommand b2 rfl)
  refine ⟨_, a3, ?_, rfl, rfl, errorOf_none (by decide +kernel)⟩
  intro a x hx
  have hm := (mem_all_at _ x).2 ⟨a, hx⟩
  simp only [Cmd.all, Cmd.allList, List.append_nil, List.nil_append, List.mem_cons, List.not_mem_nil,
    or_false] at hm
  rcases hm with rfl | rfl <;> decide

/-- The hypotheses of `C74_accepts_partial` are met by a command with an option with a signal as argument, and a
positional without completion. -/
example : ∃ c, Api none c ∧ NoBlankNames c ∧ (∀ a p, c.namesAt a = some p → validProg (joinWith [' '] p) = true) ∧
    (∀ a x, c.at a = some x → CommandChecked sampleEnv x ∧ SimplyCompleted sampleEnv x ∧ x.data.aliases = [] ∧
      x.data.wraps = none ∧ ConditionsParse sampleEnv.isRegex x.data ∧ x.data.options.length = 1 ∧
      ∀ o ∈ x.data.options, ¬ (RepeatableUnder {} o ∧ HiddenUnder {} o)) := by
  have a0 : Api none (.node { prog := S "a" } none []) := Api.new rfl rfl rfl
  have a1 := Api.step a0 (Api.addOption (o := { strings := [S "-s"], complete := some [.str (S "signal")] })
    (o' := { strings := [S "-s"], complete := some [.str (S "signal")] }) rfl)
  have a2 := Api.step a1 (Api.addPositional (p := { number := 1, complete := [.str (S "none")] })
    (p' := { number := 1, complete := [.str (S "none")] }) rfl)
  have hone : ∀ (d : CmdData) a x, (Cmd.node d none []).at a = some x → a = [] ∧ x = .node d none [] := by
    intro d a x hx
    cases a with
    | nil => simp only [Cmd.at, Option.some.injEq] at hx; exact ⟨rfl, hx.symm⟩
    | cons i is => simp [Cmd.at] at hx
  refine ⟨_, a2, ?_, ?_, ?_⟩
  · intro a x hx
    obtain ⟨_, rfl⟩ := hone _ a x hx
    decide
  · intro a p hp
    obtain ⟨x, hx⟩ := at_of_namesAt _ a p hp
    obtain ⟨rfl, _⟩ := hone _ a x hx
    cases hp
    decide
  · intro a x hx
    obtain ⟨_, rfl⟩ := hone _ a x hx
    simp only [Cmd.data, List.nil_append]
    refine ⟨⟨?_, ?_, fun h => absurd rfl h⟩, ⟨?_, ?_⟩, trivial, trivial, ?_, rfl, ?_⟩
    · intro o ho
      simp only [Cmd.data, List.nil_append, List.mem_singleton] at ho
      subst ho
      refine ⟨⟨by simp, fun s hs => (isValidOptionString_iff s).1 ?_⟩, by simp, by simp, fun c hc => ?_, by simp⟩
      · simp only [List.mem_singleton] at hs
        subst hs
        decide
      · cases hc
        exact .simple _ _ (by decide) (.void _ (by decide))
    · intro p hp
      simp only [Cmd.data, List.nil_append, List.mem_singleton] at hp
      subst hp
      exact ⟨by decide, .simple _ _ (fun h => absurd h (by decide)) (.void _ (by decide)), by simp, by simp⟩
    · intro o ho c hc
      simp only [Cmd.data, List.nil_append, List.mem_singleton] at ho
      subst ho
      cases hc
      exact .simple _ _ (by decide) (.void _ (by decide))
    · intro p hp
      simp only [Cmd.data, List.nil_append, List.mem_singleton] at hp
      subst hp
      exact .inl rfl
    · rintro w _ (⟨o, ho, h⟩ | ⟨p, hp, h⟩)
      · simp only [List.mem_singleton] at ho
        subst ho
        cases h
      · simp only [List.mem_singleton] at hp
        subst hp
        cases h
    · intro o ho
      simp only [List.mem_singleton] at ho
      subst ho
      rintro ⟨_, h, _⟩
      cases h

end CC
