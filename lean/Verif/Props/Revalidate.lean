import Verif.Lemmas.RevalidateDocs
/-!
# C73: what passes validation and is imported can be configured
-/

namespace CC

/-! ## The configured tree -/

theorem mapData_namesAt (f : CmdData → CmdData) (hf : ∀ d, (f d).prog = d.prog) (c : Cmd) (a : List Nat) :
    (c.mapData f).namesAt a = c.namesAt a := by
  induction a generalizing c with
  | nil => cases c; simp [Cmd.mapData, Cmd.namesAt, Cmd.data, hf]
  | cons i is ih =>
    cases c with
    | node d s ch =>
      simp only [Cmd.mapData, Cmd.namesAt, mapDataList_eq, List.getElem?_map, hf]
      cases ch[i]? with
      | none => rfl
      | some ci => simp [ih]

theorem mapData_data (f : CmdData → CmdData) (c : Cmd) : (c.mapData f).data = f c.data := by cases c; rfl

theorem mapData_children (f : CmdData → CmdData) (c : Cmd) :
    (c.mapData f).children = c.children.map (Cmd.mapData f) := by
  cases c; simp [Cmd.mapData, Cmd.children, mapDataList_eq]

theorem checkWhens_iff (isRegex : Str → Bool) (ws : List Str) :
    checkWhens isRegex ws = .ok () ↔ ∀ w ∈ ws, ∃ t, parseWhen isRegex w = .ok t := by
  induction ws with
  | nil => simp [checkWhens]
  | cons w ws ih =>
    simp only [checkWhens]
    cases hw : parseWhen isRegex w with
    | error e => simp [hw]
    | ok t => simp [hw, ih]

theorem mem_all_at (c x : Cmd) : x ∈ c.all ↔ ∃ a, c.at a = some x := by
  obtain ⟨as, _, h2, h3⟩ := C19_traversal c
  constructor
  · intro hx
    have : some x ∈ c.all.map some := List.mem_map.2 ⟨x, hx, rfl⟩
    rw [h3] at this
    obtain ⟨a, _, ha⟩ := List.mem_map.1 this
    exact ⟨a, ha⟩
  · rintro ⟨a, ha⟩
    have : some x ∈ as.map c.at := List.mem_map.2 ⟨a, (h2 a).2 (by rw [ha]; rfl), ha⟩
    rw [← h3] at this
    obtain ⟨y, hy, he⟩ := List.mem_map.1 this
    cases he
    exact hy

theorem repeatAccepted_apply (cfg : Config) (x : Cmd) (h : RepeatAccepted x) :
    RepeatAccepted (x.mapData (applyConfig cfg)) := by
  obtain ⟨_, _, _, _, e5⟩ := applyConfig_fields cfg x.data
  refine ⟨?_, ?_⟩
  · rw [mapData_data, e5]
    simp only [List.forall_mem_map]
    intro p hp q hq hr
    rw [(applyPos_fields cfg p).2.2.1] at hr
    rw [(applyPos_fields cfg p).1, (applyPos_fields cfg q).1]
    exact h.last p hp q hq hr
  · rw [mapData_data, e5, mapData_children]
    intro hne
    simp only [List.forall_mem_map]
    intro p hp
    rw [(applyPos_fields cfg p).2.2.1]
    exact h.subcommands (fun h0 => hne (by simp [h0])) p hp

theorem whensOf_apply (cfg : Config) (d : CmdData) :
    whensOf (applyConfig cfg d) = if cfg.disabledWhen then [] else whensOf d := by
  obtain ⟨_, _, _, e4, e5⟩ := applyConfig_fields cfg d
  unfold whensOf
  rw [e4, e5, List.filterMap_map, List.filterMap_map]
  have h1 : ((·.when_) : Opt → Option Str) ∘ applyOpt cfg = fun o => if cfg.disabledWhen then none else o.when_ := by
    funext o
    exact (applyOpt_fields cfg o).2.2.2.2.2.2.2
  have h2 : ((·.when_) : Pos → Option Str) ∘ applyPos cfg = fun p => if cfg.disabledWhen then none else p.when_ := by
    funext p
    exact (applyPos_fields cfg p).2.2.2.2
  rw [h1, h2]
  cases cfg.disabledWhen <;> simp

theorem mem_whensOf (d : CmdData) (w : Str) : w ∈ whensOf d ↔
    w ≠ [] ∧ ((∃ o ∈ d.options, o.when_ = some w) ∨ ∃ p ∈ d.positionals, p.when_ = some w) := by
  unfold whensOf
  rw [List.mem_filter, List.mem_append, List.mem_filterMap, List.mem_filterMap]
  simp [and_comm]

/-! ## The property -/

/-- C73: a list of definitions that the validator accepts and that is imported can be configured exactly if the
configuration makes no hidden option repeatable (in the commands that the validator looks at: the program and its
direct subcommands) and the conditions below the direct subcommands are well-formed, or conditions are disabled. The
result is the imported command line with the configuration applied to every command. Missing: the two conditions, see
`C73_hidden` and `C73_deep_when`, and names with white space other than blanks, see `C73_name`. -/
theorem C73_enhance_partial (env : ValEnv) (cfg : Config) (docs : List Val) (c : Cmd)
    (h : validate env (replaceDefinesInDocuments docs) = .ok ()) (hc : dictsToCmd docs = .ok c)
    (hb : ∀ d, .dict d ∈ replaceDefinesInDocuments docs → BlanksOnly d) :
    ((∃ c', enhance env.isRegex (validateCommandlines env) cfg c = .ok c') ↔
      (∀ a x, c.at a = some x → a.length ≤ 1 → ∀ o ∈ x.data.options, ¬ (RepeatableUnder cfg o ∧ HiddenUnder cfg o)) ∧
      (cfg.disabledWhen = false → ∀ a x, c.at a = some x → 2 ≤ a.length → ConditionsParse env.isRegex x.data)) ∧
    ∀ c', enhance env.isRegex (validateCommandlines env) cfg c = .ok c' → c' = c.mapData (applyConfig cfg) := by
  obtain ⟨hu, hv, hacc⟩ := tree_again env docs c h hc hb
  have hprog : ∀ d, (applyConfig cfg d).prog = d.prog := fun d => (applyConfig_fields cfg d).1
  have hu' : UniqueNames (c.mapData (applyConfig cfg)) := by
    intro a x hx
    rw [mapData_at, Option.map_eq_some_iff] at hx
    obtain ⟨y, hy, rfl⟩ := hx
    have := hu a y hy
    rw [mapData_children, List.map_map]
    have he : (fun y : Cmd => y.data.prog) ∘ Cmd.mapData (applyConfig cfg) = fun y => y.data.prog := by
      funext z
      simp only [Function.comp_apply, mapData_data, hprog]
    rw [he]
    exact this
  have hv' : PathsValid (c.mapData (applyConfig cfg)) := by
    intro a p hp
    rw [mapData_namesAt _ hprog] at hp
    exact hv a p hp
  have hval : validateCommandlines env (c.mapData (applyConfig cfg)) = .ok () ↔
      ∀ a x, c.at a = some x → a.length ≤ 1 → ∀ o ∈ x.data.options, ¬ (RepeatableUnder cfg o ∧ HiddenUnder cfg o) := by
    rw [validateCommandlines_iff env _ hu' hv']
    constructor
    · intro hx a x hax hl
      obtain ⟨p, hp, _⟩ := namesAt_isSome c a x hax
      obtain ⟨g1, _⟩ := hx a (x.mapData (applyConfig cfg)) p (by rw [mapData_at, hax]; rfl)
        (by rw [mapData_namesAt _ hprog, hp]) hl
      rw [mapData_data] at g1
      exact (cmdAccepted_apply env cfg _ _ (hacc a x p hax hp hl).1).1 g1
    · intro hx a y p hy hp hl
      rw [mapData_at, Option.map_eq_some_iff] at hy
      obtain ⟨x, hax, rfl⟩ := hy
      rw [mapData_namesAt _ hprog] at hp
      obtain ⟨g1, g2⟩ := hacc a x p hax hp hl
      rw [mapData_data]
      exact ⟨(cmdAccepted_apply env cfg _ _ g1).2 (hx a x hax hl), repeatAccepted_apply cfg x g2⟩
  have hwhen : checkWhens env.isRegex ((c.mapData (applyConfig cfg)).all.flatMap (fun x => whensOf x.data)) = .ok () ↔
      (cfg.disabledWhen = false → ∀ a x, c.at a = some x → 2 ≤ a.length → ConditionsParse env.isRegex x.data) := by
    rw [checkWhens_iff]
    simp only [List.mem_flatMap, mem_all_at, mapData_at, Option.map_eq_some_iff]
    constructor
    · intro hw hdis a x hax _ w hm
      intro hor
      refine hw w ⟨_, ⟨a, x, hax, rfl⟩, ?_⟩
      rw [mapData_data, whensOf_apply, hdis]
      exact (mem_whensOf _ _).2 ⟨hm, hor⟩
    · rintro hw w ⟨_, ⟨a, x, hax, rfl⟩, hm⟩
      rw [mapData_data, whensOf_apply] at hm
      cases hdis : cfg.disabledWhen with
      | true => simp [hdis] at hm
      | false =>
        simp only [hdis, Bool.false_eq_true, if_false] at hm
        by_cases hl : 2 ≤ a.length
        · obtain ⟨h1, h2⟩ := (mem_whensOf _ _).1 hm
          exact hw hdis a x hax hl w h1 h2
        · obtain ⟨p, hp, _⟩ := namesAt_isSome c a x hax
          obtain ⟨g1, _⟩ := hacc a x p hax hp (by omega)
          obtain ⟨_, ⟨o, ho, hwo⟩ | ⟨q, hq, hwq⟩⟩ := (mem_whensOf _ _).1 hm
          · exact (g1.options o ho).when_ w hwo
          · exact (g1.positionals q hq).when_ w hwq
  have hcopy := (import_ok docs c hc).2
  have hen : ∀ c', enhance env.isRegex (validateCommandlines env) cfg c = .ok c' ↔
      checkWhens env.isRegex ((c.mapData (applyConfig cfg)).all.flatMap (fun x => whensOf x.data)) = .ok () ∧
      validateCommandlines env (c.mapData (applyConfig cfg)) = .ok () ∧ c.mapData (applyConfig cfg) = c' := by
    intro c'
    unfold enhance
    simp only [hcopy, except_bind_ok, except_unit_bind_ok, Except.ok.injEq, exists_eq_left']
    constructor
    · rintro ⟨_, h1, _, h2, h3⟩
      exact ⟨h1, h2, h3⟩
    · rintro ⟨h1, h2, h3⟩
      exact ⟨_, h1, _, h2, h3⟩
  refine ⟨?_, fun c' h' => ((hen c').1 h').2.2.symm⟩
  rw [← hval, ← hwhen]
  constructor
  · rintro ⟨c', h'⟩
    obtain ⟨h1, h2, _⟩ := (hen c').1 h'
    exact ⟨h2, h1⟩
  · rintro ⟨h2, h1⟩
    exact ⟨_, (hen _).2 ⟨h1, h2, rfl⟩⟩

/-- C73: if the configuration neither makes options repeatable nor disables the check for repetition, definitions of
the program and direct subcommands that are accepted and imported can always be configured. -/
theorem C73_shallow_partial (env : ValEnv) (cfg : Config) (docs : List Val) (c : Cmd)
    (h : validate env (replaceDefinesInDocuments docs) = .ok ()) (hc : dictsToCmd docs = .ok c)
    (hb : ∀ d, .dict d ∈ replaceDefinesInDocuments docs → BlanksOnly d)
    (h1 : cfg.repeatableOptions = false) (h2 : cfg.disabledRepeatable = false)
    (hdeep : ∀ a x, c.at a = some x → a.length ≤ 1) :
    enhance env.isRegex (validateCommandlines env) cfg c = .ok (c.mapData (applyConfig cfg)) := by
  obtain ⟨hiff, hres⟩ := C73_enhance_partial env cfg docs c h hc hb
  obtain ⟨c', hc'⟩ := hiff.2 (by
    refine ⟨fun a x hx _ o ho => ?_, fun _ a x hx hl => ?_⟩
    · rintro ⟨hr, hh, _⟩
      rcases hr with hr | ⟨_, hr⟩ | hr
      · have hok := ok_at c (import_ok docs c hc).1 a x hx
        rw [ok_iff] at hok
        have := hok.1.2.1 o ho
        simp [Opt.check, hr, hh] at this
      · rw [h1] at hr; cases hr
      · rw [h2] at hr; cases hr
    · have := hdeep a x hx
      omega)
  rw [hc', hres c' hc']

/-- A hidden option, and nothing else. -/
def hiddenDefs : List Val := [dictOf [("prog", .str (S "a")), ("options", .list [dictOf [
  ("option_strings", .list [.str (S "-x")]), ("hidden", .bool true)]])]]

/-- What is imported from it. -/
def hiddenCmd : Cmd := .node { prog := S "a", options := [{ strings := [S "-x"], hidden := true }] } none []

/-- A hidden option that is accepted and imported, but rejected if options are repeatable by default, or if the check
for repetition is disabled. -/
theorem C73_hidden : validate sampleEnv hiddenDefs = .ok () ∧ dictsToCmd hiddenDefs = .ok hiddenCmd ∧
    enhance sampleEnv.isRegex (validateCommandlines sampleEnv) {} hiddenCmd = .ok (hiddenCmd.mapData (applyConfig {})) ∧
    (∀ c', enhance sampleEnv.isRegex (validateCommandlines sampleEnv) { repeatableOptions := true } hiddenCmd ≠ .ok c') ∧
    ∀ c', enhance sampleEnv.isRegex (validateCommandlines sampleEnv) { disabledRepeatable := true } hiddenCmd ≠ .ok c' := by
  refine ⟨(errorOf_none (by decide +kernel)).choose_spec, rfl, rfl, ?_, ?_⟩
  · intro c' h
    have : errorOf (enhance sampleEnv.isRegex (validateCommandlines sampleEnv) { repeatableOptions := true } hiddenCmd) =
      some .schemaError := by decide +kernel
    rw [h] at this
    cases this
  · intro c' h
    have : errorOf (enhance sampleEnv.isRegex (validateCommandlines sampleEnv) { disabledRepeatable := true } hiddenCmd) =
      some .schemaError := by decide +kernel
    rw [h] at this
    cases this

/-- A condition that is not well-formed, below a direct subcommand. -/
def deepDefs : List Val := [dictOf [("prog", .str (S "a"))], dictOf [("prog", .str (S "a b"))],
  dictOf [("prog", .str (S "a b c")), ("options", .list [dictOf [
    ("option_strings", .list [.str (S "-x")]), ("when", .str (S "sometimes"))]])]]

/-- What is imported from it. -/
def deepCmd : Cmd := .node { prog := S "a" } (some 1) [.node { prog := S "b" } (some 1) [
  .node { prog := S "c", options := [{ strings := [S "-x"], when_ := some (S "sometimes") }] } none []]]

/-- It is accepted and imported, but no script can be made from it, except if conditions are disabled. -/
theorem C73_deep_when : validate sampleEnv deepDefs = .ok () ∧ dictsToCmd deepDefs = .ok deepCmd ∧
    (∀ c', enhance sampleEnv.isRegex (validateCommandlines sampleEnv) {} deepCmd ≠ .ok c') ∧
    enhance sampleEnv.isRegex (validateCommandlines sampleEnv) { disabledWhen := true } deepCmd =
      .ok (deepCmd.mapData (applyConfig { disabledWhen := true })) := by
  refine ⟨(errorOf_none (by decide +kernel)).choose_spec, rfl, ?_, rfl⟩
  intro c' h
  have : errorOf (enhance sampleEnv.isRegex (validateCommandlines sampleEnv) {} deepCmd) ≠ none := by decide +kernel
  rw [h] at this
  exact this rfl

/-- A name with a no-break space. -/
def nbspDefs : List Val := [dictOf [("prog", .str (S "a"))],
  dictOf [("prog", .str (S "a b")), ("positionals", .list [dictOf [("number", .int 1), ("repeatable", .bool true)]])],
  dictOf [("prog", .str ['a', ' ', 'b', Char.ofNat 0xa0, 'c'])]]

/-- What is imported from it. -/
def nbspCmd : Cmd := .node { prog := S "a" } (some 1) [.node { prog := S "b", positionals := [
  { number := 1, complete := [.str (S "none")], repeatable := true }] } (some 2) [.node { prog := S "c" } none []]]

/-- For the validator it is a subcommand of the program, for the import a subcommand of a subcommand. It is accepted
and imported, but no script can be made from it. -/
theorem C73_name : validate sampleEnv nbspDefs = .ok () ∧ dictsToCmd nbspDefs = .ok nbspCmd ∧
    ∀ c', enhance sampleEnv.isRegex (validateCommandlines sampleEnv) {} nbspCmd ≠ .ok c' := by
  refine ⟨(errorOf_none (by decide +kernel)).choose_spec, rfl, ?_⟩
  intro c' h
  have : errorOf (enhance sampleEnv.isRegex (validateCommandlines sampleEnv) {} nbspCmd) ≠ none := by decide +kernel
  rw [h] at this
  exact this rfl

/-- The hypotheses are met by the sample, which has an option, a subcommand and a repeatable positional. -/
example : validate sampleEnv (replaceDefinesInDocuments sampleDefs) = .ok () ∧
    (∃ c, dictsToCmd sampleDefs = .ok c ∧ c.children.length = 1) ∧
    ∀ d, .dict d ∈ replaceDefinesInDocuments sampleDefs → BlanksOnly d := by
  have he : replaceDefinesInDocuments sampleDefs = sampleDefs := by decide +kernel
  rw [he]
  refine ⟨(errorOf_none (by decide +kernel)).choose_spec, ⟨_, rfl, rfl⟩, ?_⟩
  intro d hd s hs
  simp only [sampleDefs, List.mem_cons, List.not_mem_nil, or_false, dictOf, Val.dict.injEq] at hd
  rcases hd with rfl | rfl <;> simp [getKey, S] at hs <;> subst hs <;> decide +kernel

end CC
