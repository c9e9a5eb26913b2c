import Verif.Props.HelpConverter
import Verif.Props.Defines
/-!
# C77: the definition written from a help text can be used
-/

namespace CC
open HelpYaml HelpText

/-- What an item with options must be like for its option to be accepted: valid option strings and an
argument that is not called `cmd`. -/
structure Usable (os : List HelpOption) : Prop where
  some_option : os ≠ []
  strings : ∀ o ∈ os, isValidOptionString o.option = true
  optional : ∀ o ∈ os, o.optional = true → ∃ m, o.metavar = some m ∧ m ≠ []
  noCmd : ∀ o ∈ os, ∀ m, o.metavar = some m → ¬ ∃ a b, lower m = a ++ S "cmd" ++ b

theorem lastMetavar_some {os : List HelpOption} {o : HelpOption} {m : Str} (ho : o ∈ os) (hm : o.metavar = some m)
    (h0 : m ≠ []) : ∃ n, lastMetavar os = some n := by
  unfold lastMetavar
  have : m ∈ (os.filterMap (·.metavar)).filter (· ≠ []) := by
    rw [List.mem_filter]
    exact ⟨List.mem_filterMap.2 ⟨o, ho, hm⟩, by simpa using h0⟩
  cases hl : ((os.filterMap (·.metavar)).filter (· ≠ [])).getLast? with
  | none => rw [List.getLast?_eq_none_iff.1 hl] at this; cases this
  | some n => exact ⟨n, rfl⟩

theorem getKey_of_mem {d : List (Key × Val)} {k : Str} {v : Val} (hn : (d.map Prod.fst).Nodup) (h : (Key.str k, v) ∈ d) :
    getKey d k = some v := by
  induction d with
  | nil => cases h
  | cons e d ih =>
    rw [List.map_cons, List.nodup_cons] at hn
    rcases List.mem_cons.1 h with rfl | h
    · simp [getKey]
    · have hne : e.1 ≠ Key.str k := fun e' => hn.1 (e' ▸ List.mem_map.2 ⟨_, h, rfl⟩)
      have := ih hn.2 h
      unfold getKey at this ⊢
      rw [List.find?_cons_of_neg (by simpa using hne)]
      exact this

/-- The keys of an option that was written. -/
def helpKeys : List Key := [S "option_strings", S "metavar", S "help", S "optional_arg", S "complete"].map Key.str

theorem says_key {os : List HelpOption} {desc : Option Str} {d : List (Key × Val)} (h : Says os desc d) {k : Str} {v : Val}
    (hk : getKey d k = some v) : Key.str k ∈ helpKeys :=
  h.keys.subset (List.mem_map.2 ⟨_, getKey_mem hk, rfl⟩)

theorem says_no {os : List HelpOption} {desc : Option Str} {d : List (Key × Val)} (h : Says os desc d) {k : Str}
    (hk : Key.str k ∉ helpKeys) : getKey d k = none := by
  cases hg : getKey d k with
  | none => rfl
  | some v => exact absurd (says_key h hg) hk

theorem says_nodup {os : List HelpOption} {desc : Option Str} {d : List (Key × Val)} (h : Says os desc d) :
    (d.map Prod.fst).Nodup := h.keys.nodup (by decide)

theorem says_given {os : List HelpOption} {desc : Option Str} {d : List (Key × Val)} (h : Says os desc d)
    (hg : Doc.Given d (S "metavar") ∨ lastMetavar os ≠ none) :
    ∃ m n c w, lastMetavar os = some m ∧ getKey d (S "metavar") = some (.str n) ∧ getKey d (S "complete") = some (.list c) ∧
      Suggests w c := by
  cases hm : lastMetavar os with
  | none =>
    rcases hg with ⟨v, h1, _⟩ | h1
    · rw [(h.flag hm).1] at h1; cases h1
    · exact absurd hm h1
  | some m =>
    obtain ⟨n, c, h1, _, h2, w, _, h4⟩ := h.argument m hm
    exact ⟨m, n, c, w, rfl, h1, h2, h4⟩

theorem says_entries {os : List HelpOption} {desc : Option Str} {d : List (Key × Val)} (h : Says os desc d) :
    Doc.Entries Doc.optionTable d := by
  rintro ⟨k, v⟩ he
  have hk : k ∈ helpKeys := h.keys.subset (List.mem_map.2 ⟨_, he, rfl⟩)
  have get : ∀ s, k = .str s → getKey d s = some v := fun s e => getKey_of_mem (says_nodup h) (by rw [← e]; exact he)
  simp only [helpKeys, List.map_cons, List.map_nil, List.mem_cons, List.not_mem_nil, or_false] at hk
  rcases hk with rfl | rfl | rfl | rfl | rfl
  · have := get _ rfl
    rw [h.strings] at this
    cases this
    exact ⟨_, .head _, rfl, ⟨_, rfl⟩⟩
  · have := get _ rfl
    refine ⟨_, .tail _ (.head _), rfl, ?_⟩
    cases hm : lastMetavar os with
    | none => rw [(h.flag hm).1] at this; cases this
    | some m =>
      obtain ⟨n, c, h1, _⟩ := h.argument m hm
      rw [h1] at this
      cases this
      exact .inr ⟨_, rfl⟩
  · have := get _ rfl
    obtain ⟨ls, t, h1, _⟩ := h.help
    rw [h1] at this
    cases this
    exact ⟨_, .tail _ (.tail _ (.head _)), rfl, .inr ⟨_, rfl⟩⟩
  · have := get _ rfl
    refine ⟨_, .tail _ (.tail _ (.tail _ (.head _))), rfl, ?_⟩
    by_cases hx : ∃ o ∈ os, o.optional = true
    · rw [h.optional hx] at this
      cases this
      exact .inr ⟨_, rfl⟩
    · rw [h.required (fun o ho => by
        cases hb : o.optional with
        | false => rfl
        | true => exact absurd ⟨o, ho, hb⟩ hx)] at this
      cases this
  · have := get _ rfl
    refine ⟨(S "complete", Doc.OrNone Doc.IsList), by simp [Doc.optionTable], rfl, ?_⟩
    cases hm : lastMetavar os with
    | none => rw [(h.flag hm).2] at this; cases this
    | some m =>
      obtain ⟨n, c, _, _, h1, _⟩ := h.argument m hm
      rw [h1] at this
      cases this
      exact .inr ⟨_, rfl⟩

/-- The completers that can be written: one of these without arguments, choices, or `cmd`. -/
def helpKinds : List Str :=
  [S "file", S "integer", S "pid", S "user", S "group", S "command", S "signal", S "directory", S "none"]

theorem suggests_cases {n : Str} {c : List Val} (h : Suggests n c) :
    (c = [.str (S "cmd")] ∧ lower n = S "cmd") ∨ (∃ k ∈ helpKinds, c = [.str k]) ∨
      ∃ l : List Str, c = [.str (S "choices"), .list (l.map .str)] := by
  cases h with
  | name h =>
    obtain ⟨ws, h, hw⟩ := h
    have key : ∀ e ∈ argumentNames, (e.1 = S "cmd" ∧ e.2 = [S "cmd"]) ∨ e.1 ∈ helpKinds := by decide
    rcases key _ h with ⟨e1, e2⟩ | e
    · left
      simp only at e1 e2
      rw [e2] at hw
      exact ⟨by rw [e1], List.mem_singleton.1 hw⟩
    · exact .inr (.inl ⟨_, e, rfl⟩)
  | suffix _ h =>
    obtain ⟨ws, w, p, h, _⟩ := h
    have key : ∀ e ∈ argumentEnds, e.1 ∈ helpKinds := by decide
    exact .inr (.inl ⟨_, key _ h, rfl⟩)
  | choices => exact .inr (.inr ⟨_, rfl⟩)
  | none => exact .inr (.inl ⟨_, by decide, rfl⟩)

theorem kind_accepted (env : ValEnv) (ctx : ValCtx) {k : Str} (h : k ∈ helpKinds) :
    ∃ t, checkComplete env ctx [] [.str k] = .ok t := by
  have hs : checkSimple env ctx [] k [] = some (.ok ()) := by
    by_cases hk : k = S "none"
    · subst hk; rfl
    · exact simple_complete env ctx [] k [] (simple_kind env h) hk (by
        rintro rfl
        revert h
        decide)
  refine ⟨[], ?_⟩
  rw [checkComplete.eq_def]
  simp only [hs]
  rfl

theorem choices_accepted (env : ValEnv) (ctx : ValCtx) (l : List Str) :
    ∃ t, checkComplete env ctx [] [.str (S "choices"), .list (l.map .str)] = .ok t := by
  have hs : Doc.Simple env (S "choices") [.list (l.map .str)] := .choices _ (by
    intro v hv
    obtain ⟨s, _, rfl⟩ := List.mem_map.1 hv
    exact .inl ⟨s, rfl⟩)
  obtain ⟨args, h1, h2⟩ := complete_accepts env ctx (fun c => c ≠ S "none" ∧ c ≠ S "command_arg") (fun c h => h) _
    (.simple _ _ (by decide) hs)
  cases h1
  exact h2 []

theorem lower_append (a b : Str) : lower (a ++ b) = lower a ++ lower b := by simp [lower]

theorem says_accepted (env : ValEnv) (ctx : ValCtx) {os : List HelpOption} {desc : Option Str} {d : List (Key × Val)}
    (h : Says os desc d) (hu : Usable os) : checkOption env ctx (.dict d) = .ok () := by
  have no : ∀ k, Key.str k ∉ helpKeys → getKey d k = none := fun k => says_no h
  rw [checkOption, handle_ok, option0_iff]
  refine ⟨⟨says_entries h, ?_⟩, ?_, ?_, ?_, ?_, ?_, ?_, ⟨?_, ?_, ?_⟩, ?_⟩
  · intro q hq hr
    simp only [optionRules, List.mem_cons, List.not_mem_nil, or_false] at hq
    rcases hq with rfl | hq
    · rw [hasKey_given, h.strings]; simp
    · rcases hq with rfl | rfl | rfl | rfl | rfl | rfl | rfl | rfl | rfl | rfl | rfl | rfl | rfl <;> simp at hr
  · rw [h.strings]
    cases os with
    | nil => exact absurd rfl hu.some_option
    | cons o os =>
      refine ⟨_, _, rfl, ?_⟩
      intro v hv
      have : v ∈ (o :: os).map (fun o => Val.str o.option) := hv
      obtain ⟨p, hp, rfl⟩ := List.mem_map.1 this
      exact ⟨_, rfl, hu.strings p hp⟩
  · intro hg
    obtain ⟨m, n, c, w, _, _, h3, _⟩ := says_given h (.inl hg)
    exact ⟨_, h3, by simp⟩
  · intro hg
    by_cases hx : ∃ o ∈ os, o.optional = true
    · obtain ⟨o, ho, hb⟩ := hx
      obtain ⟨m, hm, h0⟩ := hu.optional o ho hb
      obtain ⟨n, hn⟩ := lastMetavar_some ho hm h0
      obtain ⟨m, n, c, w, _, _, h3, _⟩ := says_given h (.inr (by rw [hn]; simp))
      exact ⟨_, h3, by simp⟩
    · unfold Doc.On at hg
      rw [h.required (fun o ho => by
        cases hb : o.optional with
        | false => rfl
        | true => exact absurd ⟨o, ho, hb⟩ hx)] at hg
      cases hg
  · rintro ⟨h1, _⟩
    unfold Doc.On at h1
    rw [no _ (by decide)] at h1
    cases h1
  · rintro ⟨⟨v, h1, _⟩, _⟩
    rw [no _ (by decide)] at h1
    cases h1
  · intro l h1
    rw [no _ (by decide)] at h1
    cases h1
  · rw [checkCompleteAttr_iff]
    intro c hc
    cases hm : lastMetavar os with
    | none => rw [(h.flag hm).2] at hc; cases hc
    | some m =>
      obtain ⟨n, c', h1, ⟨a, b, he⟩, h2, w, hw, h4⟩ := h.argument m hm
      rw [h2] at hc
      cases hc
      rcases suggests_cases h4 with ⟨_, h5⟩ | ⟨k, hk, rfl⟩ | ⟨l, rfl⟩
      · exfalso
        obtain ⟨o, ho, hom⟩ := lastMetavar_mem hm
        obtain ⟨x, y, hxy, _, _⟩ := hw.ends
        apply hu.noCmd o ho m hom
        refine ⟨lower (a ++ x), lower (y ++ b), ?_⟩
        rw [he, hxy, ← h5]
        simp [lower_append]
      · exact kind_accepted env _ hk
      · exact choices_accepted env _ l
  · rw [checkWhenAttr_iff]
    intro v h1
    rw [no _ (by decide)] at h1
    cases h1
  · rw [checkCaptureAttr_iff]
    intro v h1
    rw [no _ (by decide)] at h1
    cases h1
  · unfold checkArgSep
    rw [no _ (by decide)]

theorem saysAll_mem {items : List HelpItem} {vs : List Val} (h : SaysAll items vs) :
    ∀ v ∈ vs, ∃ os desc d, v = .dict d ∧ HelpItem.options os desc ∈ items ∧ Says os desc d := by
  induction h with
  | nil => intro v hv; cases hv
  | unparsed t _ ih =>
    intro v hv
    obtain ⟨os, desc, d, h1, h2, h3⟩ := ih v hv
    exact ⟨os, desc, d, h1, .tail _ h2, h3⟩
  | options hs _ ih =>
    intro v hv
    rcases List.mem_cons.1 hv with rfl | hv
    · exact ⟨_, _, _, rfl, .head _, hs⟩
    · obtain ⟨os, desc, d, h1, h2, h3⟩ := ih v hv
      exact ⟨os, desc, d, h1, .tail _ h2, h3⟩

theorem saysAll_nonempty {items : List HelpItem} {vs : List Val} (h : SaysAll items vs)
    (ho : ∃ os desc, HelpItem.options os desc ∈ items) : vs ≠ [] := by
  induction h with
  | nil => obtain ⟨_, _, h⟩ := ho; cases h
  | unparsed t _ ih =>
    obtain ⟨os, desc, h⟩ := ho
    rcases List.mem_cons.1 h with h | h
    · cases h
    · exact ih ⟨os, desc, h⟩
  | options _ _ _ => simp

theorem noSpace_validProg {s : Str} (h0 : s ≠ []) (hs : ∀ c ∈ s, pyIsSpace c = false) :
    validProg s = true ∧ splitOn ' ' s = [s] := by
  have hb : ' ' ∉ s := fun h => by have := hs _ h; revert this; decide
  have ht : '\t' ∉ s := fun h => by have := hs _ h; revert this; decide
  have hn : '\n' ∉ s := fun h => by have := hs _ h; revert this; decide
  have hblank : isBlank s = false := by
    cases s with
    | nil => exact absurd rfl h0
    | cons c s => simp [isBlank, hs c (by simp)]
  have hf : s.head? ≠ some ' ' := fun h => hb (List.mem_of_head? h)
  have hl : s.getLast? ≠ some ' ' := fun h => hb (List.mem_of_getLast? h)
  have hdd : hasDoubleSpace s = false := by
    clear hf hl ht hn hblank h0 hs
    induction s with
    | nil => rfl
    | cons a s ih =>
      cases s with
      | nil => rfl
      | cons b s =>
        have ha : a ≠ ' ' := fun e => hb (by simp [e])
        rw [hasDoubleSpace, ih (fun h => hb (List.mem_cons_of_mem _ h))]
        simp [ha]
  refine ⟨by simp [validProg, hblank, hf, hl, ht, hn, hdd], ?_⟩
  have hj := join_splitOn ' ' s
  cases hw : splitOn ' ' s with
  | nil => exact absurd hw (splitOn_nonempty ' ' s)
  | cons w ws =>
    rw [hw] at hj
    cases ws with
    | nil => rw [joinWith] at hj; rw [hj]
    | cons v vs =>
      exfalso
      apply hb
      rw [← hj]
      simp [joinWith]

/-- **C77.** The document written for items is accepted by the validation and can be imported. -/
theorem C77_document_partial (env : ValEnv) (prog : Str) (items : List HelpItem) (vs : List Val) (h : SaysAll items vs)
    (hu : ∀ os desc, HelpItem.options os desc ∈ items → Usable os) (ho : ∃ os desc, HelpItem.options os desc ∈ items)
    (h0 : prog ≠ []) (hp : ∀ c ∈ prog, pyIsSpace c = false) (hd : prog ≠ S "%defines%") :
    validate env [document prog vs] = .ok () ∧ ∃ c, dictsToCmd [document prog vs] = .ok c := by
  have hvs := saysAll_nonempty h ho
  obtain ⟨hv, hsp⟩ := noSpace_validProg h0 hp
  have hdoc : document prog vs = .dict [(.str (S "prog"), .str prog), (.str (S "help"), .str (S "<Program description here>")),
      (.str (S "options"), .list vs)] := by
    unfold document
    rw [if_neg hvs]
  rw [hdoc]
  generalize hD : [(Key.str (S "prog"), Val.str prog), (.str (S "help"), .str (S "<Program description here>")),
      (.str (S "options"), .list vs)] = D
  have k1 : getKey D (S "prog") = some (.str prog) := by rw [← hD]; rfl
  have k2 : getKey D (S "options") = some (.list vs) := by rw [← hD]; rfl
  have k3 : ∀ k, k ∉ [S "prog", S "help", S "options"] → getKey D k = none := by
    intro k hk
    rw [← hD]
    simp only [List.mem_cons, List.not_mem_nil, or_false, not_or] at hk
    simp [getKey, Ne.symm hk.1, Ne.symm hk.2.1, Ne.symm hk.2.2]
  have hval : validate env [.dict D] = .ok () := by
    rw [validate_iff]
    refine ⟨[([prog], D)], ?_, ?_, ?_, ?_⟩
    · have := HaveDefs.cons D prog [] [] k1 hv .nil
      rw [hsp] at this
      exact this
    · simp [OrderedAfter]
    · exact ⟨prog, by simp, by simp⟩
    · intro p d hm _
      cases List.mem_singleton.1 hm
      refine ⟨?_, ?_⟩
      · unfold checkDefinition
        simp only [except_unit_bind_ok, matches_definition.dictionary, checkListAttr_ok, checkWord_ok, need_ok]
        refine ⟨⟨?_, ?_⟩, by simpa [strKey, k1] using hv, ?_, ?_, ?_, ?_⟩
        · rintro ⟨k, v⟩ he
          rw [← hD] at he
          simp only [List.mem_cons, List.not_mem_nil, or_false] at he
          rcases he with e | e | e <;> cases e
          · exact ⟨(S "prog", Doc.Text), by simp [Doc.definitionTable], rfl, ⟨_, rfl⟩⟩
          · exact ⟨(S "help", Doc.OrNone Doc.Text), by simp [Doc.definitionTable], rfl, .inr ⟨_, rfl⟩⟩
          · exact ⟨(S "options", Doc.OrNone Doc.IsList), by simp [Doc.definitionTable], rfl, .inr ⟨_, rfl⟩⟩
        · intro q hq hr
          simp only [definitionRules, List.mem_cons, List.not_mem_nil, or_false] at hq
          rcases hq with rfl | hq
          · rw [hasKey_given, k1]; simp
          · rcases hq with rfl | rfl | rfl | rfl | rfl | rfl | rfl | rfl <;> simp at hr
        · intro l hl
          rw [k3 _ (by decide)] at hl
          cases hl
        · refine (checkWraps_ok D prog k1).2 ?_
          intro v hv
          rw [k3 _ (by decide)] at hv
          cases hv
        · intro l hl v hv
          rw [k2] at hl
          cases hl
          obtain ⟨os, desc, d, rfl, h2, h3⟩ := saysAll_mem h v hv
          exact says_accepted env _ h3 (hu os desc h2)
        · intro l hl
          rw [k3 _ (by decide)] at hl
          cases hl
      · intro ps hps
        rw [k3 _ (by decide)] at hps
        cases hps
  refine ⟨hval, ?_⟩
  have hord : replaceDefinesInDocuments [.dict D] = [.dict D] := C28_no_defines _ (by
    intro v hv
    rw [List.mem_singleton.1 hv]
    intro d e
    cases e
    rw [k1]
    intro e
    exact hd (by injection e with e; injection e))
  refine C61_loads_partial env _ (by rw [hord]; exact hval) ?_ ?_
  · intro d hd
    rw [hord] at hd
    cases List.mem_singleton.1 hd
    refine ⟨⟨?_, ?_, ?_⟩, ?_⟩
    · intro k hk
      simp only [definitionNoNull, List.mem_cons, List.not_mem_nil, or_false] at hk
      rcases hk with rfl | rfl
      · rw [k2]; simp
      · rw [k3 _ (by decide)]; simp
    · intro l o hl ho k hk
      rw [k2] at hl
      cases hl
      obtain ⟨os, desc, d, e, h2, h3⟩ := saysAll_mem h _ ho
      cases e
      simp only [optionNoNull, List.mem_cons, List.not_mem_nil, or_false] at hk
      rcases hk with rfl | hk
      · by_cases hx : ∃ o ∈ os, o.optional = true
        · rw [h3.optional hx]; simp
        · rw [h3.required (fun o ho => by
            cases hb : o.optional with
            | false => rfl
            | true => exact absurd ⟨o, ho, hb⟩ hx)]
          simp
      · rw [says_no h3 (by rcases hk with rfl | rfl | rfl | rfl <;> decide)]
        simp
    · intro l o hl
      rw [k3 _ (by decide)] at hl
      cases hl
    · intro s hs c hc hsc
      rw [k1] at hs
      cases hs
      rw [hp c hc] at hsc
      cases hsc
  · rw [hord]
    intro v hv path ⟨d, s, e1, e2, _, e3⟩
    rw [List.mem_singleton.1 hv] at e1
    cases e1
    rw [k1] at e2
    cases e2
    rw [e3, hsp]
    simp

/-! ## From the text -/

/-- The only white space are blanks, tabs and newlines. -/
def PlainSpaces (s : Str) : Prop := ∀ c ∈ s, pyIsSpace c = true → c = ' ' ∨ c = '\t' ∨ c = '\n'

/-- The letters `cmd` do not follow each other anywhere. -/
def NoCmd (s : Str) : Prop := ¬ ∃ a b, lower s = a ++ S "cmd" ++ b

theorem NoCmd.part {a m b s : Str} (h : NoCmd s) (he : s = a ++ m ++ b) : NoCmd m := by
  rintro ⟨x, y, e⟩
  refine h ⟨lower a ++ x, y ++ lower b, ?_⟩
  rw [he, lower_append, lower_append, e]
  simp

theorem optionWord_valid {o t : Str} (h : OptionWord o) (ho : ∀ c ∈ o, c ∈ t) (ht : PlainSpaces t) :
    isValidOptionString o = true := by
  obtain ⟨h1, h2, h3, h4⟩ := h
  match o, h1, h3, h4, h2, ho with
  | [], h1, _, _, _, _ => cases h1
  | [x], h1, h3, _, _, _ => cases h1; exact absurd rfl h3
  | x :: c :: cs, h1, _, h4, h2, ho =>
    cases h1
    show (((c :: cs).all (fun x => !pyIsSpace x && x != ',')) && !(c == '-' && cs.isEmpty)) = true
    rw [Bool.and_eq_true]
    refine ⟨?_, ?_⟩
    · rw [List.all_eq_true]
      intro y hy
      have hn := h2 y (List.mem_cons_of_mem _ hy)
      have hsp : pyIsSpace y = false := by
        cases hb : pyIsSpace y with
        | false => rfl
        | true =>
          exfalso
          rcases ht y (ho y (List.mem_cons_of_mem _ hy)) hb with rfl | rfl | rfl <;> simp at hn
      have hc : y ≠ ',' := by rintro rfl; simp at hn
      simp [hsp, hc]
    · cases cs with
      | nil =>
        have : c ≠ '-' := by rintro rfl; exact h4 rfl
        simp [this]
      | cons z zs => simp

/-- The parts of a written option. -/
theorem written_option_usable {cl : Bool} {o : HelpOption} {t : Str} (h : WrittenOption cl o t) :
    OptionWord o.option ∧ (∀ m, o.metavar = some m → ∃ a, t = a ++ m) ∧
      (o.optional = true → ∃ m, o.metavar = some m ∧ m ≠ []) := by
  cases h with
  | alone _ hw => exact ⟨hw, by simp, by simp⟩
  | equals _ hw _ =>
    rename_i b o m0 _ _
    refine ⟨hw, ?_, by simp⟩
    intro m hm
    cases hm
    exact ⟨b ++ o ++ ['='], by simp⟩
  | optional _ hw _ =>
    refine ⟨hw, ?_, fun _ => ⟨_, rfl, by simp⟩⟩
    intro m hm
    cases hm
    exact ⟨_, rfl⟩
  | space _ hw _ _ =>
    rename_i b o x m0 _ _ _
    refine ⟨hw, ?_, by simp⟩
    intro m hm
    cases hm
    exact ⟨b ++ o ++ [x], by simp⟩

theorem written_options_usable {os : List HelpOption} {t : Str} (h : WrittenOptions os t) :
    os ≠ [] ∧ ∀ o ∈ os, OptionWord o.option ∧ (∀ m, o.metavar = some m → ∃ a b, t = a ++ m ++ b) ∧
      (o.optional = true → ∃ m, o.metavar = some m ∧ m ≠ []) := by
  induction h with
  | last h =>
    refine ⟨by simp, fun o ho => ?_⟩
    rw [List.mem_singleton.1 ho]
    obtain ⟨h1, h2, h3⟩ := written_option_usable h
    refine ⟨h1, fun m hm => ?_, h3⟩
    obtain ⟨a, ha⟩ := h2 m hm
    exact ⟨a, [], by simp [ha]⟩
  | dangling h _ _ =>
    refine ⟨by simp, fun o ho => ?_⟩
    rw [List.mem_singleton.1 ho]
    obtain ⟨h1, h2, h3⟩ := written_option_usable h
    refine ⟨h1, fun m hm => ?_, h3⟩
    obtain ⟨a, ha⟩ := h2 m hm
    exact ⟨a, _, by rw [ha, List.append_assoc]⟩
  | cons h _ _ _ ih =>
    refine ⟨by simp, fun o ho => ?_⟩
    rcases List.mem_cons.1 ho with rfl | ho
    · obtain ⟨h1, h2, h3⟩ := written_option_usable h
      refine ⟨h1, fun m hm => ?_, h3⟩
      obtain ⟨a, ha⟩ := h2 m hm
      exact ⟨a, _, by rw [ha, List.append_assoc]⟩
    · obtain ⟨h1, h2, h3⟩ := ih.2 o ho
      refine ⟨h1, fun m hm => ?_, h3⟩
      obtain ⟨a, b, ha⟩ := h2 m hm
      rename_i t b' d _ u _ _ _ _ 
      exact ⟨t ++ b' ++ d :: a, b, by rw [ha]; simp⟩

theorem usable_of_covers {items : List HelpItem} {s : Str} (h : Covers items s) (hs : PlainSpaces s) (hc : NoCmd s) :
    ∀ os desc, HelpItem.options os desc ∈ items → Usable os := by
  have step : ∀ {os t}, WrittenOptions os t → PlainSpaces t → NoCmd t → Usable os := by
    intro os t ho ht hct
    obtain ⟨h0, h1⟩ := written_options_usable ho
    refine ⟨h0, fun o hoo => ?_, fun o hoo => (h1 o hoo).2.2, fun o hoo m hm => ?_⟩
    · exact optionWord_valid (h1 o hoo).1 (written_options_chars ho o hoo).1 ht
    · obtain ⟨a, b, e⟩ := (h1 o hoo).2.1 m hm
      exact hct.part e
  induction h with
  | nil => intro os desc h; cases h
  | cons hi hrest ih =>
    rename_i i t is u
    intro os desc hm
    have ht : PlainSpaces t := fun c hc => hs c (List.mem_append_left _ hc)
    have hct : NoCmd t := hc.part (a := []) (b := u) rfl
    rcases List.mem_cons.1 hm with e | hm
    · subst e
      cases hi with
      | bare ho => exact step ho ht hct
      | described ho hd =>
        rename_i t1 d1 u1
        exact step ho (fun c hc => ht c (List.mem_append_left _ hc)) (hct.part (a := []) rfl)
    · exact ih (fun c hc => hs c (List.mem_append_right _ hc)) (hc.part (a := t) (b := []) (by simp)) os desc hm

theorem programName_plain {s w : Str} (hs : PlainSpaces s) (h : programName s = .ok w) :
    ∀ c ∈ w, pyIsSpace c = false := by
  unfold programName at h
  cases hu : usageName s with
  | some v =>
    rw [hu] at h
    cases h
    intro c hc
    have hm := ((usageName_chars hu).1 c hc).1
    cases hb : pyIsSpace c with
    | false => rfl
    | true =>
      exfalso
      unfold usageName at hu
      cases ha : afterUsage s with
      | none => rw [ha] at hu; cases hu
      | some r =>
        rw [ha] at hu
        simp only at hu
        split at hu
        · cases hu
        · split at hu
          · cases hu
          · injection hu with hu
            subst hu
            have := mem_takeWhile_true hc
            rcases hs c hm hb with rfl | rfl | rfl <;> simp [isUsageSpace] at this
  | none =>
    rw [hu] at h
    simp only at h
    split at h
    · cases h
    · injection h with h
      subst h
      intro c hc
      simpa using mem_takeWhile_true hc

/-- **C77.** A help text of usual characters, in which some item has options, gives a definition that is
read, passes the validation and is imported. What is missing: `cmd` must not occur (see `C77_cmd`), and
the name must have no quotes and backslashes (see `C76_quote`). -/
theorem C77_text_partial (env : ValEnv) (content prog : Str) (items : List HelpItem) (hc : ∀ c ∈ content, UsualChar c)
    (hs : PlainSpaces content) (hcmd : NoCmd content) (hp : programName content = .ok prog)
    (hq : '"' ∉ prog ∧ '\\' ∉ prog) (hd : prog ≠ S "%defines%") (hi : parseHelp content = .ok items)
    (ho : ∃ os desc, HelpItem.options os desc ∈ items) :
    ∃ t vs c, helpToYaml content = .ok t ∧ YamlText.read t = some [document prog vs] ∧ SaysAll items vs ∧
      validate env [document prog vs] = .ok () ∧ dictsToCmd [document prog vs] = .ok c := by
  have hcov := C54_covers _ _ hi
  have hname := programName_chars hp
  have hqn : QuotableName prog := by
    intro c hcc
    refine ⟨?_, fun e => hq.1 (e ▸ hcc), fun e => hq.2 (e ▸ hcc)⟩
    rcases (hc c (hname.1 c hcc).1).1 with e | h
    · exact absurd e (hname.1 c hcc).2
    · exact h
  obtain ⟨t, vs, g1, g2, g3⟩ := C76_definition_partial content prog items hp hi hqn (writable_of_usual hcov hc)
  have hsp := programName_plain hs hp
  obtain ⟨g4, c, g5⟩ := C77_document_partial env prog items vs g3 (usable_of_covers hcov hs hcmd) ho hname.2 hsp hd
  exact ⟨t, vs, c, g1, g2, g3, g4, g5⟩

/-- **C77.** For the usual layout: the definition has one option for every entry and can be used. -/
theorem C77_layout_partial (env : ValEnv) (ps : List Part) (prog : Str) (h : Usual false ps)
    (hc : ∀ c ∈ text ps, UsualChar c) (hs : PlainSpaces (text ps)) (hcmd : NoCmd (text ps))
    (hp : programName (text ps) = .ok prog) (hq : '"' ∉ prog ∧ '\\' ∉ prog) (hd : prog ≠ S "%defines%")
    (ho : ∃ os desc, HelpItem.options os desc ∈ ps.map Part.meaning) :
    ∃ t vs c, helpToYaml (text ps) = .ok t ∧ YamlText.read t = some [document prog vs] ∧
      SaysAll (ps.map Part.meaning) vs ∧ validate env [document prog vs] = .ok () ∧
      dictsToCmd [document prog vs] = .ok c :=
  C77_text_partial env (text ps) prog _ hc hs hcmd hp hq hd (C62_layout ps h) ho

/-! ## Cases -/

theorem noCmd_of {s : Str} (h : (List.range (s.length + 1)).all (fun i => !startsWith ((lower s).drop i) (S "cmd")) = true) :
    NoCmd s := by
  rintro ⟨a, b, e⟩
  have hl : a.length ≤ s.length := by
    have := congrArg List.length e
    simp [lower] at this
    omega
  have := List.all_eq_true.1 h a.length (List.mem_range.2 (by omega))
  rw [e, List.append_assoc, List.drop_left] at this
  rw [(startsWith_iff _ _).2 ⟨b, rfl⟩] at this
  cases this

/-- The text of `C62_example` meets the hypotheses. -/
theorem C77_example : PlainSpaces (text helpParts) ∧ NoCmd (text helpParts) ∧
    ∃ os desc, HelpItem.options os desc ∈ helpParts.map Part.meaning := by
  refine ⟨?_, noCmd_of (by decide +kernel), ?_⟩
  · have : ∀ c ∈ text helpParts, pyIsSpace c = true → (c == ' ' || c == '\t' || c == '\n') = true := by decide +kernel
    intro c hc hs
    simpa [or_assoc] using this c hc hs
  · rw [C62_example.2.2]
    exact ⟨_, _, .tail _ (.tail _ (.head _))⟩

/-! ## Where the property fails -/

/-- What the validation says about the definition that is read back. -/
def validateBack (s : String) : Option (Option (Option Err)) := (readBack s).map (·.map (fun l => errorOf (validate sampleEnv l)))

/-- What the import says about it. -/
def importBack (s : String) : Option (Option (Option Err)) := (readBack s).map (·.map (fun l => errorOf (dictsToCmd l)))

/-- An argument `CMD`: the completer is rejected. -/
theorem C77_cmd : validateBack "usage: a\n  -x CMD  Text\n" = some (some (some .schemaError)) := by decide +kernel

/-- A help text without options passes the validation, but is not imported. -/
theorem C77_no_options : validateBack "usage: a\nText\n" = some (some none) ∧
    importBack "usage: a\nText\n" = some (some (some .crazyError)) := by
  constructor <;> decide +kernel

/-- An option with a no-break space: the option string is rejected. -/
theorem C77_no_break_space : validateBack "usage: a\n  -x\u00a0y  Text\n" = some (some (some .schemaError)) := by
  decide +kernel

end CC
