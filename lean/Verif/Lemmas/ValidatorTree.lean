import Verif.Lemmas.Validator
import Verif.Props.StrUtils
/-!
# Lemmas about the validator: options, positionals, definitions and their tree
-/

namespace CC

theorem Completer.mono {env : ValEnv} {ok ok' : Str → Prop} (h : ∀ c, ok c → ok' c) {v : Val}
    (hv : Doc.Completer env ok v) : Doc.Completer env ok' v := by
  induction hv with
  | simple c args hc hs => exact .simple c args (h c hc) hs
  | combine cmds hl _ ih => exact .combine cmds hl ih
  | list cmd _ ih => exact .list cmd ih
  | listOptions cmd d _ hd ih => exact .listOptions cmd d ih hd
  | «prefix» s cmd _ ih => exact .prefix s cmd ih
  | keyValueList p w defs cond h1 h2 h3 h4 h5 _ ih => exact .keyValueList p w defs cond h1 h2 h3 h4 h5 ih
  | keyValuePair w defs cond h1 h2 h3 _ ih => exact .keyValuePair w defs cond h1 h2 h3 ih

theorem acc_text (n r) (v : Val) : ({ name := n, required := r, types := [.str] } : Rule).Accepts v ↔ Doc.Text v := by
  simp [Rule.Accepts, type_str]

theorem acc_int (n r) (v : Val) : ({ name := n, required := r, types := [.int] } : Rule).Accepts v ↔
    ∃ i, Doc.Integer v i := by
  simp [Rule.Accepts, type_int]

theorem acc_isList (n r) (v : Val) : ({ name := n, required := r, types := [.list] } : Rule).Accepts v ↔
    Doc.IsList v := by
  simp only [Rule.Accepts, checkType_ok]
  cases v <;> simp [Ty.has, Doc.IsList]

theorem acc_textNone (n r) (v : Val) : ({ name := n, required := r, types := [.str, .none] } : Rule).Accepts v ↔
    Doc.OrNone Doc.Text v := by
  simp only [Rule.Accepts, checkType_ok]
  cases v <;> simp [Ty.has, Doc.OrNone, Doc.Text]

theorem acc_flagNone (n r) (v : Val) : ({ name := n, required := r, types := [.bool, .none] } : Rule).Accepts v ↔
    Doc.OrNone Doc.Flag v := by
  simp only [Rule.Accepts, checkType_ok]
  cases v <;> simp [Ty.has, Doc.OrNone, Doc.Flag]

theorem acc_listNone (n r) (v : Val) : ({ name := n, required := r, types := [.list, .none] } : Rule).Accepts v ↔
    Doc.OrNone Doc.IsList v := by
  simp only [Rule.Accepts, checkType_ok]
  cases v <;> simp [Ty.has, Doc.OrNone, Doc.IsList]

theorem acc_extended (n r) (v : Val) : (⟨n, r, [.bool, .str, .none], checkExtendedBool⟩ : Rule).Accepts v ↔
    Doc.ExtendedFlag v := by
  simp only [Rule.Accepts, checkType_ok]
  cases v <;> simp [Ty.has, Doc.ExtendedFlag, Doc.Flag, checkExtendedBool, need_ok]

theorem matches_option : RulesFit optionRules Doc.optionTable := by
  unfold optionRules Doc.optionTable
  refine .cons _ _ _ _ rfl (acc_isList _ _) (.cons _ _ _ _ rfl (acc_textNone _ _) (.cons _ _ _ _ rfl (acc_textNone _ _)
    (.cons _ _ _ _ rfl (acc_flagNone _ _) (.cons _ _ _ _ rfl (acc_textNone _ _) (.cons _ _ _ _ rfl (acc_listNone _ _)
    (.cons _ _ _ _ rfl (acc_extended _ _) (.cons _ _ _ _ rfl (acc_flagNone _ _) (.cons _ _ _ _ rfl (acc_flagNone _ _)
    (.cons _ _ _ _ rfl (acc_flagNone _ _) (.cons _ _ _ _ rfl (acc_listNone _ _) (.cons _ _ _ _ rfl (acc_textNone _ _)
    (.cons _ _ _ _ rfl (acc_textNone _ _) (.cons _ _ _ _ rfl (acc_text _ _) .nil
    ?_) ?_) ?_) ?_) ?_) ?_) ?_) ?_) ?_) ?_) ?_) ?_) ?_) ?_
  all_goals decide

theorem matches_positional : RulesFit positionalRules Doc.positionalTable := by
  unfold positionalRules Doc.positionalTable
  refine .cons _ _ _ _ rfl (acc_int _ _) (.cons _ _ _ _ rfl (acc_textNone _ _) (.cons _ _ _ _ rfl (acc_textNone _ _)
    (.cons _ _ _ _ rfl (acc_flagNone _ _) (.cons _ _ _ _ rfl (acc_flagNone _ _) (.cons _ _ _ _ rfl (acc_listNone _ _)
    (.cons _ _ _ _ rfl (acc_textNone _ _) (.cons _ _ _ _ rfl (acc_textNone _ _) .nil
    ?_) ?_) ?_) ?_) ?_) ?_) ?_) ?_
  all_goals decide

theorem matches_definition : RulesFit definitionRules Doc.definitionTable := by
  unfold definitionRules Doc.definitionTable
  refine .cons _ _ _ _ rfl (acc_text _ _) (.cons _ _ _ _ rfl (acc_textNone _ _) (.cons _ _ _ _ rfl (acc_listNone _ _)
    (.cons _ _ _ _ rfl (acc_textNone _ _) (.cons _ _ _ _ rfl (acc_extended _ _) (.cons _ _ _ _ rfl (acc_extended _ _)
    (.cons _ _ _ _ rfl (acc_extended _ _) (.cons _ _ _ _ rfl (acc_listNone _ _) (.cons _ _ _ _ rfl (acc_listNone _ _) .nil
    ?_) ?_) ?_) ?_) ?_) ?_) ?_) ?_) ?_
  all_goals decide

theorem getKey_mem {d : List (Key × Val)} {k : Str} {v : Val} (h : getKey d k = some v) : (Key.str k, v) ∈ d := by
  simp only [getKey, Option.map_eq_some_iff] at h
  obtain ⟨e, he, rfl⟩ := h
  have h1 := List.find?_some he
  have h2 := List.mem_of_find?_eq_some he
  simp only [decide_eq_true_eq] at h1
  rw [← h1]
  exact h2

/-- What a table says about an attribute; names in the table differ. -/
theorem Doc.Entries.get {table : List (Str × (Val → Prop))} {d : List (Key × Val)} (h : Doc.Entries table d)
    (hn : (table.map (·.1)).Nodup) {k : Str} {P : Val → Prop} (hk : (k, P) ∈ table) {v : Val}
    (hv : getKey d k = some v) : P v := by
  obtain ⟨row, hr, h1, h2⟩ := h _ (getKey_mem hv)
  injection h1 with h1
  have : row = (k, P) := by
    clear h h2 hv
    induction table with
    | nil => simp at hr
    | cons a t ih =>
      simp only [List.map_cons, List.nodup_cons] at hn
      rcases List.mem_cons.1 hr with rfl | hr'
      · rcases List.mem_cons.1 hk with hk | hk
        · exact hk.symm
        · exact absurd (List.mem_map.2 ⟨_, hk, h1⟩) hn.1
      · rcases List.mem_cons.1 hk with rfl | hk
        · exact absurd (List.mem_map_of_mem (f := (·.1)) hr') (by rw [← h1]; exact hn.1)
        · exact ih hn.2 hk hr'
  rw [this] at h2
  exact h2

theorem checkCompleteAttr_iff (env : ValEnv) (ctx : ValCtx) (d : List (Key × Val)) :
    checkCompleteAttr env ctx d = .ok () ↔
      ∀ c, getKey d (S "complete") = some (.list c) → ∃ t, checkComplete env ctx [] c = .ok t := by
  unfold checkCompleteAttr
  split
  · rename_i c hc
    rw [except_bind_ok, hc]
    simp
  · rename_i h
    simp only [true_iff]
    intro c hc
    exact absurd hc (h c)

theorem checkWhenAttr_iff (env : ValEnv) (d : List (Key × Val)) :
    checkWhenAttr env d = .ok () ↔ ∀ v, getKey d (S "when") = some v → v ≠ .none →
      ∃ s toks, v = .str s ∧ parseWhen env.isRegex s = .ok toks := by
  unfold checkWhenAttr
  by_cases h : isSet d (S "when") = true
  · rw [if_pos h]
    obtain ⟨v, hv, hn⟩ := (isSet_iff _ _).1 h
    rw [hv]
    simp only [Option.getD_some, Option.some.injEq, forall_eq']
    have : checkWhen env v = .ok () ↔ ∃ s toks, v = .str s ∧ parseWhen env.isRegex s = .ok toks := by
      cases v with
      | str s =>
        simp only [checkWhen]
        split <;> simp_all
      | _ => simp [checkWhen]
    rw [this]
    exact ⟨fun h _ => h, fun h => h hn⟩
  · rw [if_neg h]
    simp only [true_iff]
    intro v hv hn
    exact absurd ((isSet_iff _ _).2 ⟨v, hv, hn⟩) h

theorem checkCaptureAttr_iff (d : List (Key × Val)) :
    checkCaptureAttr d = .ok () ↔ ∀ v, getKey d (S "capture") = some v → v ≠ .none →
      ∃ s, v = .str s ∧ isValidVariableName s = true := by
  unfold checkCaptureAttr
  by_cases h : isSet d (S "capture") = true
  · rw [if_pos h]
    obtain ⟨v, hv, hn⟩ := (isSet_iff _ _).1 h
    rw [hv]
    simp only [Option.getD_some, Option.some.injEq, forall_eq']
    have : checkVariableName v = .ok () ↔ ∃ s, v = .str s ∧ isValidVariableName s = true := by
      cases v <;> simp [checkVariableName, need_ok]
    rw [this]
    exact ⟨fun h _ => h, fun h => h hn⟩
  · rw [if_neg h]
    simp only [true_iff]
    intro v hv hn
    exact absurd ((isSet_iff _ _).2 ⟨v, hv, hn⟩) h

theorem handle_ok {α} (h : Err) (r : Except Err α) (a : α) : handle h r = .ok a ↔ r = .ok a := by
  unfold handle
  split <;> simp

theorem common_sound (env : ValEnv) (ctx : ValCtx) (ok : Str → Prop) (d : List (Key × Val))
    (hc : ∀ v, getKey d (S "complete") = some v → Doc.OrNone Doc.IsList v)
    (hi : ∀ c t, checkComplete env ctx [] c = .ok t → Doc.Completer env ok (.list c))
    (h : checkCompleteAttr env ctx d = .ok () ∧ checkWhenAttr env d = .ok () ∧ checkCaptureAttr d = .ok ()) :
    Doc.Common env ok d := by
  rw [checkCompleteAttr_iff, checkWhenAttr_iff, checkCaptureAttr_iff] at h
  refine ⟨fun v hv hn => ?_, h.2.1, h.2.2⟩
  rcases hc v hv with rfl | ⟨l, rfl⟩
  · exact absurd rfl hn
  · obtain ⟨t, ht⟩ := h.1 l hv
    exact hi l t ht

theorem common_complete (env : ValEnv) (ctx : ValCtx) (ok : Str → Prop) (d : List (Key × Val))
    (hi : ∀ c, Doc.Completer env ok (.list c) → ∃ t, checkComplete env ctx [] c = .ok t)
    (h : Doc.Common env ok d) :
    checkCompleteAttr env ctx d = .ok () ∧ checkWhenAttr env d = .ok () ∧ checkCaptureAttr d = .ok () := by
  rw [checkCompleteAttr_iff, checkWhenAttr_iff, checkCaptureAttr_iff]
  exact ⟨fun c hv => hi c (h.complete _ hv (by simp)), h.when, h.capture⟩

theorem checkOptionStrings_ok (d : List (Key × Val)) : checkOptionStrings d = .ok () ↔
    ∃ a l, getKey d (S "option_strings") = some (.list (a :: l)) ∧
      ∀ v ∈ a :: l, ∃ s, v = .str s ∧ isValidOptionString s = true := by
  have hs : ∀ v, checkOptionString v = .ok () ↔ ∃ s, v = .str s ∧ isValidOptionString s = true := by
    intro v
    cases v <;> simp [checkOptionString, need_ok]
  unfold checkOptionStrings
  split
  · rename_i l hl
    rw [except_unit_bind_ok, need_ok, checkEach_ok]
    simp only [hs, hl]
    cases l with
    | nil => simp
    | cons a l =>
      constructor
      · rintro ⟨_, h⟩; exact ⟨a, l, rfl, h⟩
      · rintro ⟨a', l', h, h'⟩
        simp only [Option.some.injEq, Val.list.injEq] at h
        rw [h]
        exact ⟨rfl, h'⟩
  · rename_i h
    simp only [reduceCtorEq, false_iff]
    rintro ⟨a, l, h', _⟩
    exact h _ h'

theorem not_and_iff (a b : Bool) (p q : Prop) (ha : a = true ↔ p) (hb : b = true ↔ q) :
    (!(a && b)) = true ↔ ¬ (p ∧ q) := by
  rw [← ha, ← hb]; cases a <;> cases b <;> simp

theorem not_and_not_iff (a b : Bool) (p q : Prop) (ha : a = true ↔ p) (hb : b = true ↔ q) :
    (!(a && !b)) = true ↔ (p → q) := by
  rw [← ha, ← hb]; cases a <;> cases b <;> simp

theorem isTrue_iff (d : List (Key × Val)) (k : Str) : isTrue? d k = true ↔ Doc.On d k := by
  simp [isTrue?, Doc.On]

theorem checkArgSep_ok (d : List (Key × Val)) (h : ∀ v, getKey d (S "long_opt_arg_sep") = some v → Doc.Text v) :
    checkArgSep d = .ok () ↔ ∀ v, getKey d (S "long_opt_arg_sep") = some v →
      v ∈ [.str (S "space"), .str (S "equals"), .str (S "both"), .str (S "INHERIT")] := by
  unfold checkArgSep
  split
  · rename_i s hs
    rw [need_ok, List.contains_iff_mem, hs]
    simp
  · rename_i hn
    simp only [true_iff]
    intro v hv
    obtain ⟨s, rfl⟩ := h v hv
    exact absurd hv (hn s)

/-- The conditions of `_check_option0` on one dictionary. -/
theorem option0_iff (env : ValEnv) (ctx : ValCtx) (d : List (Key × Val)) :
    checkOption0 env ctx (.dict d) = .ok () ↔
      (Doc.Entries Doc.optionTable d ∧ ∀ q ∈ optionRules, q.required = true → hasKey d q.name = true) ∧
      (∃ a l, getKey d (S "option_strings") = some (.list (a :: l)) ∧
        ∀ v ∈ a :: l, ∃ s, v = .str s ∧ isValidOptionString s = true) ∧
      (Doc.Given d (S "metavar") → Doc.Given d (S "complete")) ∧
      (Doc.On d (S "optional_arg") → Doc.Given d (S "complete")) ∧
      ¬ (Doc.On d (S "repeatable") ∧ Doc.On d (S "hidden")) ∧
      ¬ (Doc.Given d (S "group") ∧ Doc.Given d (S "groups")) ∧
      (∀ l, getKey d (S "groups") = some (.list l) → ∀ v ∈ l, Doc.Text v) ∧
      (checkCompleteAttr env { ctx with positional := none } d = .ok () ∧ checkWhenAttr env d = .ok () ∧
        checkCaptureAttr d = .ok ()) ∧ checkArgSep d = .ok () := by
  unfold checkOption0
  simp only [except_unit_bind_ok, matches_option.dictionary, checkOptionStrings_ok, need_ok,
      not_and_iff _ _ _ _ (isTrue_iff d _) (isTrue_iff d _), not_and_iff _ _ _ _ (isSet_iff d _) (isSet_iff d _),
      not_and_not_iff _ _ _ _ (isTrue_iff d _) (isSet_iff d _),
      not_and_not_iff _ _ _ _ (isSet_iff d _) (isSet_iff d _), checkListAttr_ok, type_str, Doc.Given, and_assoc]

theorem option_sound (env : ValEnv) (ctx : ValCtx) (ok : Str → Prop)
    (hi : ∀ c t, checkComplete env { ctx with positional := none } [] c = .ok t → Doc.Completer env ok (.list c))
    (v : Val) (h : checkOption env ctx v = .ok ()) : ∃ d, v = .dict d ∧ Doc.OptionDef env ok d := by
  rw [checkOption, handle_ok] at h
  cases v with
  | dict d =>
    rw [option0_iff] at h
    have hnodup : (Doc.optionTable.map (·.1)).Nodup := by decide
    obtain ⟨⟨he, _⟩, h1, h2, h3, h4, h5, h6, h7, h8⟩ := h
    refine ⟨d, rfl, he, h1, h2, h3, h4, h5, h6, ?_, ?_⟩
    · exact common_sound env _ ok d
          (fun v hv => he.get hnodup (P := Doc.OrNone Doc.IsList) (by simp [Doc.optionTable]) hv) hi h7
    · exact (checkArgSep_ok d (fun v hv => he.get hnodup (P := Doc.Text) (by simp [Doc.optionTable]) hv)).1 h8
  | _ => simp [checkOption0, checkDictionary, bind, Except.bind] at h

theorem option_complete (env : ValEnv) (ctx : ValCtx) (ok : Str → Prop)
    (hi : ∀ c, Doc.Completer env ok (.list c) → ∃ t, checkComplete env { ctx with positional := none } [] c = .ok t)
    (d : List (Key × Val)) (h : Doc.OptionDef env ok d) : checkOption env ctx (.dict d) = .ok () := by
  rw [checkOption, handle_ok, option0_iff]
  have hnodup : (Doc.optionTable.map (·.1)).Nodup := by decide
  refine ⟨⟨h.entries, ?_⟩, h.strings, h.metavar, h.optionalArg, h.hidden, h.groups, h.groupNames,
    common_complete env _ ok d hi h.common,
    (checkArgSep_ok d (fun v hv => h.entries.get hnodup (P := Doc.Text) (by simp [Doc.optionTable]) hv)).2 h.sep⟩
  obtain ⟨a, l, h1, _⟩ := h.strings
  intro q hq hr
  simp only [optionRules, List.mem_cons, List.not_mem_nil, or_false] at hq
  rcases hq with rfl | hq
  · rw [hasKey_given, h1]; simp
  · rcases hq with rfl | rfl | rfl | rfl | rfl | rfl | rfl | rfl | rfl | rfl | rfl | rfl | rfl <;> simp at hr

theorem checkPosNumber_ok (d : List (Key × Val)) : checkPosNumber d = .ok () ↔
    ∃ v i, getKey d (S "number") = some v ∧ Doc.Integer v i ∧ 1 ≤ i := by
  unfold checkPosNumber
  simp only [integer_numOf]
  split
  · rename_i i hi
    rw [Option.bind_eq_some_iff] at hi
    obtain ⟨v, hv, hi⟩ := hi
    rw [need_ok, decide_eq_true_eq]
    constructor
    · intro h; exact ⟨v, i, hv, hi, h⟩
    · rintro ⟨v', i', hv', hi', h⟩
      rw [hv] at hv'
      injection hv' with hv'
      subst hv'
      rw [hi] at hi'
      injection hi' with hi'
      omega
  · rename_i hi
    simp only [reduceCtorEq, false_iff]
    rintro ⟨v, i, hv, hn, _⟩
    rw [hv] at hi
    simp [hn] at hi

theorem positional_sound (env : ValEnv) (ctx : ValCtx) (ok : List (Key × Val) → Str → Prop)
    (hi : ∀ d c t, checkComplete env { ctx with positional := some d } [] c = .ok t →
      Doc.Completer env (ok d) (.list c)) (v : Val) (h : checkPositional env ctx v = .ok ()) :
    ∃ d, v = .dict d ∧ Doc.PositionalDef env (ok d) d := by
  rw [checkPositional, handle_ok] at h
  cases v with
  | dict d =>
    unfold checkPositional0 at h
    simp only [except_unit_bind_ok, matches_positional.dictionary, checkPosNumber_ok] at h
    have hnodup : (Doc.positionalTable.map (·.1)).Nodup := by decide
    obtain ⟨⟨he, _⟩, h1, h2⟩ := h
    exact ⟨d, rfl, he, h1, common_sound env _ (ok d) d
      (fun v hv => he.get hnodup (P := Doc.OrNone Doc.IsList) (by simp [Doc.positionalTable]) hv) (hi d) h2⟩
  | _ => simp [checkPositional0, checkDictionary, bind, Except.bind] at h

theorem positional_complete (env : ValEnv) (ctx : ValCtx) (ok : Str → Prop) (d : List (Key × Val))
    (hi : ∀ c, Doc.Completer env ok (.list c) →
      ∃ t, checkComplete env { ctx with positional := some d } [] c = .ok t)
    (h : Doc.PositionalDef env ok d) : checkPositional env ctx (.dict d) = .ok () := by
  rw [checkPositional, handle_ok]
  unfold checkPositional0
  simp only [except_unit_bind_ok, matches_positional.dictionary, checkPosNumber_ok]
  refine ⟨⟨h.entries, ?_⟩, h.number, common_complete env _ ok d hi h.common⟩
  obtain ⟨a, l, h1, _⟩ := h.number
  intro q hq hr
  simp only [positionalRules, List.mem_cons, List.not_mem_nil, or_false] at hq
  rcases hq with rfl | hq
  · rw [hasKey_given, h1]; simp
  · rcases hq with rfl | rfl | rfl | rfl | rfl | rfl | rfl <;> simp at hr

theorem checkWraps_ok (d : List (Key × Val)) (s : Str) (hs : getKey d (S "prog") = some (.str s)) :
    checkWraps d = .ok () ↔ ∀ v, getKey d (S "wraps") = some v → v ≠ .none →
      Doc.NonBlank v ∧ Doc.NoSpaces v ∧ ∀ w, getKey d (S "prog") = some w → Doc.NoSpaces w := by
  have hp : strKey d (S "prog") = s := by simp [strKey, hs]
  unfold checkWraps
  by_cases h : isSet d (S "wraps") = true
  · rw [if_pos h]
    obtain ⟨v, hv, hn⟩ := (isSet_iff _ _).1 h
    have hsp : (!containsSpace s) = true ↔ Doc.NoSpaces (.str s) := by
      rw [← checkNoSpaces_ok, checkNoSpaces, need_ok]
    rw [hv]
    simp only [Option.getD_some, Option.some.injEq, forall_eq', except_unit_bind_ok, checkNonEmptyString_ok,
      checkNoSpaces_ok, need_ok, hp, hsp, hs]
    exact ⟨fun h _ => h, fun h => h hn⟩
  · rw [if_neg h]
    simp only [true_iff]
    intro v hv hn
    exact absurd ((isSet_iff _ _).2 ⟨v, hv, hn⟩) h

/-- An accepted definition is a documented one. -/
theorem definition_sound (env : ValEnv) (d : List (Key × Val)) (h : checkDefinition env d = .ok ()) :
    Doc.Definition env (fun _ => True) d := by
  unfold checkDefinition at h
  simp only [except_unit_bind_ok, matches_definition.dictionary, checkListAttr_ok, checkWord_ok, need_ok] at h
  obtain ⟨⟨he, hr⟩, h1, h2, h3, h4, h5⟩ := h
  have hprog : ∃ s, getKey d (S "prog") = some (.str s) := by
    have hk := hr { name := S "prog", required := true, types := [.str] } (by simp [definitionRules]) rfl
    rw [hasKey_given] at hk
    obtain ⟨v, hv⟩ := Option.ne_none_iff_exists'.1 hk
    obtain ⟨s, rfl⟩ := he.get (by decide) (P := Doc.Text) (by simp [Doc.definitionTable]) hv
    exact ⟨s, hv⟩
  obtain ⟨s, hs⟩ := hprog
  refine ⟨he, ⟨s, hs, by simpa [strKey, hs] using h1⟩, h2, (checkWraps_ok d s hs).1 h3, fun l hl v hv => ?_,
    fun l hl v hv => ?_⟩
  · obtain ⟨o, rfl, ho⟩ := option_sound env _ _ (fun c t hc => complete_sound env _ [] c t hc) v (h4 l hl v hv)
    refine ⟨o, rfl, ?_⟩
    obtain ⟨a, b, c, d', e, f, g, hc, i⟩ := ho
    refine ⟨a, b, c, d', e, f, g, ⟨fun v hv hn => Completer.mono ?_ (hc.complete v hv hn), hc.when, hc.capture⟩, i⟩
    intro c hc
    refine ⟨trivial, fun h => ?_⟩
    obtain ⟨p, _, _, _, _, _, hp, _⟩ := hc h
    simp at hp
  · obtain ⟨p, rfl, hp⟩ := positional_sound env _ _ (fun _ c t hc => complete_sound env _ [] c t hc) v (h5 l hl v hv)
    refine ⟨p, rfl, ?_⟩
    obtain ⟨a, b, hc⟩ := hp
    refine ⟨a, b, ⟨fun v hv hn => Completer.mono ?_ (hc.complete v hv hn), hc.when, hc.capture⟩⟩
    intro c hc
    exact ⟨trivial, hc⟩

/-- A documented definition without `none` and `command_arg` is accepted. -/
theorem definition_complete (env : ValEnv) (d : List (Key × Val))
    (h : Doc.Definition env (fun c => c ≠ S "none" ∧ c ≠ S "command_arg") d) : checkDefinition env d = .ok () := by
  unfold checkDefinition
  simp only [except_unit_bind_ok, matches_definition.dictionary, checkListAttr_ok, checkWord_ok, need_ok]
  obtain ⟨s, hs, hv⟩ := h.prog
  refine ⟨⟨h.entries, ?_⟩, by simpa [strKey, hs] using hv, h.aliases, (checkWraps_ok d s hs).2 h.wraps,
    fun l hl v hv => ?_, fun l hl v hv => ?_⟩
  · intro q hq hr
    simp only [definitionRules, List.mem_cons, List.not_mem_nil, or_false] at hq
    rcases hq with rfl | hq
    · rw [hasKey_given, hs]; simp
    · rcases hq with rfl | rfl | rfl | rfl | rfl | rfl | rfl | rfl <;> simp at hr
  · obtain ⟨o, rfl, ho⟩ := h.options l hl v hv
    refine option_complete env _ _ (fun c hc => ?_) o ho
    obtain ⟨args, ha, h'⟩ := complete_accepts env { definition := d } _ (fun c hc => hc.1) _ hc
    injection ha with ha
    subst ha
    exact h' []
  · obtain ⟨p, rfl, hp⟩ := h.positionals l hl v hv
    refine positional_complete env _ _ p (fun c hc => ?_) hp
    obtain ⟨args, ha, h'⟩ := complete_accepts env { definition := d, positional := some p } _ (fun c hc => hc.1) _ hc
    injection ha with ha
    subst ha
    exact h' []

/-! ## The tree -/

/-- The definition at a path. -/
def lookupDef (t : DefTree) (q : List Str) : Option (List (Key × Val)) := (getDefinition t q).map DefTree.definition

/-- The names of the subcommands at a path. -/
def namesAt (t : DefTree) (q : List Str) : Option (List Str) := (getDefinition t q).map (fun n => n.subs.map (·.1))

theorem subTree_append (n : Str) (subs : List (Str × DefTree)) (m : Str) (t : DefTree) (h : subTree m subs = none) :
    subTree n (subs ++ [(m, t)]) = if n = m then some t else subTree n subs := by
  induction subs with
  | nil => simp [subTree, eq_comm]
  | cons a r ih =>
    obtain ⟨k, u⟩ := a
    simp only [subTree] at h
    by_cases hk : k = m
    · rw [if_pos hk] at h; simp at h
    · rw [if_neg hk] at h
      simp only [List.cons_append, subTree, ih h]
      by_cases hn : k = n
      · rw [if_pos hn, if_pos hn, if_neg (fun h => hk (hn.trans h))]
      · rw [if_neg hn, if_neg hn]

theorem subTree_set (n : Str) (subs : List (Str × DefTree)) (m : Str) (t u : DefTree) (h : subTree m subs = some u) :
    subTree n (setSubTree m t subs) = if n = m then some t else subTree n subs := by
  induction subs with
  | nil => simp [subTree] at h
  | cons a r ih =>
    obtain ⟨k, w⟩ := a
    simp only [subTree] at h
    by_cases hk : k = m
    · subst hk
      simp only [setSubTree, if_true, subTree, eq_comm]
      by_cases hn : n = k
      · simp [hn]
      · simp [hn]
    · rw [if_neg hk] at h
      simp only [setSubTree, if_neg hk, subTree, ih h]
      by_cases hn : k = n
      · rw [if_pos hn, if_pos hn, if_neg (fun h => hk (hn.trans h))]
      · rw [if_neg hn, if_neg hn]

theorem setSubTree_names (subs : List (Str × DefTree)) (m : Str) (t : DefTree) :
    (setSubTree m t subs).map (·.1) = subs.map (·.1) := by
  induction subs with
  | nil => rfl
  | cons a r ih =>
    obtain ⟨k, w⟩ := a
    simp only [setSubTree]
    split <;> simp [ih]

theorem subTree_none (n : Str) (subs : List (Str × DefTree)) : subTree n subs = none ↔ n ∉ subs.map (·.1) := by
  induction subs with
  | nil => simp [subTree]
  | cons a r ih =>
    obtain ⟨k, w⟩ := a
    simp only [subTree, List.map_cons, List.mem_cons, not_or]
    by_cases hk : k = n
    · simp [hk]
    · rw [if_neg hk, ih]
      exact ⟨fun h => ⟨fun h' => hk h'.symm, h⟩, fun h => h.2⟩

theorem subTree_mem {n : Str} {subs : List (Str × DefTree)} {t : DefTree} (h : subTree n subs = some t) :
    (n, t) ∈ subs := by
  induction subs with
  | nil => simp [subTree] at h
  | cons a r ih =>
    obtain ⟨k, w⟩ := a
    simp only [subTree] at h
    by_cases hk : k = n
    · rw [if_pos hk] at h
      simp only [Option.some.injEq] at h
      simp [hk, h]
    · rw [if_neg hk] at h
      exact List.mem_cons_of_mem _ (ih h)

theorem mem_subTree {n : Str} {subs : List (Str × DefTree)} {t : DefTree} (hn : (subs.map (·.1)).Nodup)
    (h : (n, t) ∈ subs) : subTree n subs = some t := by
  induction subs with
  | nil => simp at h
  | cons a r ih =>
    obtain ⟨k, w⟩ := a
    simp only [List.map_cons, List.nodup_cons] at hn
    simp only [subTree]
    rcases List.mem_cons.1 h with h | h
    · simp only [Prod.mk.injEq] at h
      rw [if_pos h.1.symm, h.2]
    · rw [if_neg, ih hn.2 h]
      rintro rfl
      exact hn.1 (List.mem_map.2 ⟨_, h, rfl⟩)

theorem addAt_lookup (d : List (Key × Val)) (path : List Str) (t t' : DefTree) (hne : path ≠ [])
    (h : addAt d path t = .ok t') (q : List Str) :
    lookupDef t' q = (if q = path then some d else lookupDef t q) ∧
    namesAt t' q = (if q = path then some [] else if q = path.dropLast then
      (namesAt t q).map (· ++ [path.getLastD []]) else namesAt t q) := by
  induction path generalizing t t' q with
  | nil => exact absurd rfl hne
  | cons n ns ih =>
    cases t with
    | node d0 subs =>
    cases ns with
    | nil =>
      rw [addAt] at h
      cases hs : subTree n subs with
      | some _ => simp [hs] at h
      | none =>
        simp only [hs, Except.ok.injEq] at h
        subst h
        cases q with
        | nil => simp [lookupDef, namesAt, getDefinition, DefTree.definition, DefTree.subs]
        | cons m ms =>
          simp only [lookupDef, namesAt, getDefinition, DefTree.subs, subTree_append _ _ _ _ hs]
          by_cases hm : m = n
          · subst hm
            rw [if_pos rfl, hs]
            cases ms with
            | nil => simp [getDefinition, DefTree.definition, DefTree.subs]
            | cons x xs => simp [getDefinition, DefTree.subs, subTree]
          · simp [hm]
    | cons m ns =>
      rw [addAt] at h
      cases hs : subTree n subs with
      | none => simp [hs] at h
      | some u =>
        simp only [hs, except_bind_ok, Except.ok.injEq] at h
        obtain ⟨u', hu, rfl⟩ := h
        have ih' := ih u u' (by simp) hu
        cases q with
        | nil => simp [lookupDef, namesAt, getDefinition, DefTree.definition, DefTree.subs, setSubTree_names]
        | cons x xs =>
          have hsub : ∀ l : List (Str × DefTree), (DefTree.node d0 l).subs = l := fun _ => rfl
          simp only [lookupDef, namesAt, getDefinition, hsub, subTree_set _ _ _ _ _ hs]
          by_cases hx : x = n
          · subst hx
            rw [if_pos rfl, hs]
            have := ih' xs
            simp only [lookupDef, namesAt] at this
            simp only [Option.bind_some]
            rw [this.1, this.2]
            simp
          · simp [hx]

theorem addAt_ok_iff (d : List (Key × Val)) (path : List Str) (t : DefTree) (hne : path ≠ []) :
    (∃ t', addAt d path t = .ok t') ↔ lookupDef t path.dropLast ≠ none ∧ lookupDef t path = none := by
  induction path generalizing t with
  | nil => exact absurd rfl hne
  | cons n ns ih =>
    cases t with
    | node d0 subs =>
    cases ns with
    | nil =>
      rw [addAt]
      cases hs : subTree n subs with
      | some _ => simp [lookupDef, getDefinition, DefTree.subs, hs]
      | none => simp [lookupDef, getDefinition, DefTree.subs, hs]
    | cons m ns =>
      rw [addAt]
      cases hs : subTree n subs with
      | none => simp [lookupDef, getDefinition, DefTree.subs, hs]
      | some u =>
        have := ih u (by simp)
        simp only [lookupDef, getDefinition, DefTree.subs, hs, Option.bind_some, except_bind_ok, Except.ok.injEq,
          List.dropLast_cons_cons] at this ⊢
        rw [← this]
        constructor
        · rintro ⟨_, u', hu, _⟩; exact ⟨u', hu⟩
        · rintro ⟨u', hu⟩; exact ⟨_, u', hu, rfl⟩

/-- The definition recorded for a path. -/
def findDef (added : List (List Str × List (Key × Val))) (q : List Str) : Option (List (Key × Val)) :=
  (added.find? (fun e => decide (e.1 = q))).map (·.2)

theorem findDef_none (added : List (List Str × List (Key × Val))) (q : List Str) :
    findDef added q = none ↔ q ∉ added.map (·.1) := by
  simp only [findDef, Option.map_eq_none_iff, List.find?_eq_none, decide_eq_true_eq, List.mem_map, not_exists, not_and]

theorem findDef_append (added : List (List Str × List (Key × Val))) (p : List Str) (d : List (Key × Val))
    (h : p ∉ added.map (·.1)) (q : List Str) :
    findDef (added ++ [(p, d)]) q = if q = p then some d else findDef added q := by
  simp only [findDef, List.find?_append]
  by_cases hq : q = p
  · subst hq
    have := (findDef_none added q).2 h
    simp only [findDef, Option.map_eq_none_iff] at this
    simp [this]
  · rw [if_neg hq]
    cases added.find? (fun e => decide (e.1 = q)) with
    | some e => simp
    | none => simp [Ne.symm hq]

/-- The tree holds exactly these definitions. -/
structure Holds (t : DefTree) (added : List (List Str × List (Key × Val))) : Prop where
  defs : ∀ q, q ≠ [] → lookupDef t q = findDef added q
  names : ∀ q l, namesAt t q = some l → l.Nodup
  paths : ∀ e ∈ added, e.1 ≠ []

theorem holds_empty : Holds (.node [] []) [] := by
  refine ⟨fun q hq => ?_, fun q l h => ?_, by simp⟩
  · cases q with
    | nil => exact absurd rfl hq
    | cons a r => simp [lookupDef, getDefinition, DefTree.subs, subTree, findDef]
  · cases q with
    | nil =>
      simp only [namesAt, getDefinition, DefTree.subs, Option.map_some, Option.some.injEq] at h
      subst h
      simp
    | cons a r => simp [namesAt, getDefinition, DefTree.subs, subTree] at h

/-- A node has a definition if it has names; a name leads to a node. -/
theorem mem_namesAt (t : DefTree) (q : List Str) (l : List Str) (h : namesAt t q = some l) (n : Str) :
    n ∈ l ↔ lookupDef t (q ++ [n]) ≠ none := by
  induction q generalizing t with
  | nil =>
    simp only [namesAt, getDefinition, Option.map_some, Option.some.injEq] at h
    subst h
    simp only [List.nil_append, lookupDef, getDefinition, ne_eq, Option.map_eq_none_iff]
    have := subTree_none n t.subs
    cases hs : subTree n t.subs with
    | none => simpa using this.1 hs
    | some u =>
      simp only [Option.bind_some]
      rw [hs] at this
      simp only [reduceCtorEq, false_iff, Decidable.not_not] at this
      simp [this]
  | cons a r ih =>
    simp only [namesAt, getDefinition] at h
    cases hs : subTree a t.subs with
    | none => simp [hs] at h
    | some u =>
      rw [hs] at h
      have := ih u h
      rw [this]
      simp [lookupDef, getDefinition, hs]

theorem holds_add {t t' : DefTree} {added : List (List Str × List (Key × Val))} (h : Holds t added)
    (d : List (Key × Val)) (path : List Str) (hne : path ≠ []) (ha : addAt d path t = .ok t') :
    Holds t' (added ++ [(path, d)]) := by
  have hok := (addAt_ok_iff d path t hne).1 ⟨t', ha⟩
  have hnot : path ∉ added.map (·.1) := by
    rw [← findDef_none, ← h.defs path hne]
    exact hok.2
  refine ⟨fun q hq => ?_, fun q l hl => ?_, ?_⟩
  · rw [(addAt_lookup d path t t' hne ha q).1, findDef_append _ _ _ hnot, h.defs q hq]
  · rw [(addAt_lookup d path t t' hne ha q).2] at hl
    by_cases h1 : q = path
    · rw [if_pos h1] at hl
      simp only [Option.some.injEq] at hl
      subst hl
      simp
    · rw [if_neg h1] at hl
      by_cases h2 : q = path.dropLast
      · rw [if_pos h2] at hl
        rw [Option.map_eq_some_iff] at hl
        obtain ⟨l0, hl0, rfl⟩ := hl
        refine List.nodup_append.2 ⟨h.names _ _ hl0, by simp, ?_⟩
        intro a ha b hb hab
        simp only [List.mem_singleton] at hb
        subst hab
        have := (mem_namesAt t q l0 hl0 a).1 ha
        apply this
        have hp : q ++ [a] = path := by
          rw [h2, hb]
          obtain ⟨init, last, rfl⟩ : ∃ init last, path = init ++ [last] :=
            ⟨path.dropLast, path.getLast hne, (List.dropLast_concat_getLast hne).symm⟩
          simp [List.getLastD_eq_getLast?]
        rw [hp]
        exact hok.2
      · rw [if_neg h2] at hl
        exact h.names _ _ hl
  · intro e he
    rcases List.mem_append.1 he with he | he
    · exact h.paths e he
    · simp only [List.mem_singleton] at he
      subst he
      exact hne

/-- The definitions are dictionaries with valid names. -/
inductive HaveDefs : List Val → List (List Str × List (Key × Val)) → Prop
  | nil : HaveDefs [] []
  | cons (d : List (Key × Val)) (s : Str) (vs ps) : getKey d (S "prog") = some (.str s) → validProg s = true →
      HaveDefs vs ps → HaveDefs (.dict d :: vs) ((splitOn ' ' s, d) :: ps)

/-- Each path is new and follows its parent. -/
def OrderedAfter (added : List (List Str)) : List (List Str) → Prop
  | [] => True
  | p :: ps => p ∉ added ∧ (1 < p.length → p.dropLast ∈ added) ∧ OrderedAfter (added ++ [p]) ps

theorem addDefinition_ok (t t' : DefTree) (v : Val) :
    addDefinition t v = .ok t' ↔ ∃ d s, v = .dict d ∧ getKey d (S "prog") = some (.str s) ∧ validProg s = true ∧
      addAt d (splitOn ' ' s) t = .ok t' := by
  unfold addDefinition
  cases v with
  | dict d =>
    simp only [Val.dict.injEq]
    by_cases hs : isSet d (S "prog") = true
    · rw [if_pos hs]
      cases hk : getKey d (S "prog") with
      | none => simp [hk]
      | some v =>
        cases v with
        | str s =>
          simp only [except_unit_bind_ok, need_ok]
          constructor
          · rintro ⟨h1, h2⟩; exact ⟨d, s, rfl, hk, h1, h2⟩
          · rintro ⟨d', s', rfl, h, h1, h2⟩
            rw [hk] at h
            simp only [Option.some.injEq, Val.str.injEq] at h
            subst h
            exact ⟨h1, h2⟩
        | _ =>
          simp only [reduceCtorEq, false_iff]
          rintro ⟨d', s', rfl, h, _⟩
          rw [hk] at h
          simp at h
    · rw [if_neg hs]
      simp only [reduceCtorEq, false_iff]
      rintro ⟨d', s', rfl, h, _⟩
      exact hs ((isSet_iff _ _).2 ⟨_, h, by simp⟩)
  | _ => simp

theorem makeTree_holds (vs : List Val) (t t' : DefTree) (added : List (List Str × List (Key × Val)))
    (h : Holds t added) (hm : makeTree t vs = .ok t') :
    ∃ ps, HaveDefs vs ps ∧ OrderedAfter (added.map (·.1)) (ps.map (·.1)) ∧ Holds t' (added ++ ps) := by
  induction vs generalizing t added with
  | nil =>
    simp only [makeTree, Except.ok.injEq] at hm
    subst hm
    exact ⟨[], .nil, trivial, by simpa using h⟩
  | cons v vs ih =>
    rw [makeTree, except_bind_ok] at hm
    obtain ⟨t1, h1, h2⟩ := hm
    obtain ⟨d, s, rfl, hk, hv, ha⟩ := (addDefinition_ok _ _ _).1 h1
    have hne := splitOn_ne_nil ' ' s
    have hok := (addAt_ok_iff d _ t hne).1 ⟨t1, ha⟩
    obtain ⟨ps, hd, ho, hh⟩ := ih t1 _ (holds_add h d _ hne ha) h2
    refine ⟨(splitOn ' ' s, d) :: ps, .cons d s vs ps hk hv hd, ⟨?_, ?_, ?_⟩, by simpa using hh⟩
    · rw [← findDef_none, ← h.defs _ hne]
      exact hok.2
    · intro hl
      have hne' : (splitOn ' ' s).dropLast ≠ [] := by
        intro h0
        have := congrArg List.length h0
        simp at this
        have hl' := hl
        simp only at hl'
        omega
      have := hok.1
      rw [h.defs _ hne', Ne, findDef_none, Decidable.not_not] at this
      exact this
    · simpa using ho

theorem makeTree_accepts (vs : List Val) (t : DefTree) (added ps : List (List Str × List (Key × Val)))
    (h : Holds t added) (hd : HaveDefs vs ps) (ho : OrderedAfter (added.map (·.1)) (ps.map (·.1))) :
    ∃ t', makeTree t vs = .ok t' := by
  induction hd generalizing t added with
  | nil => exact ⟨t, rfl⟩
  | cons d s vs ps hk hv hd ih =>
    obtain ⟨h1, h2, h3⟩ := ho
    have hne := splitOn_ne_nil ' ' s
    have : ∃ t', addAt d (splitOn ' ' s) t = .ok t' := by
      rw [addAt_ok_iff d _ t hne, h.defs _ hne, findDef_none]
      refine ⟨?_, h1⟩
      by_cases hl : 1 < (splitOn ' ' s).length
      · have hne' : (splitOn ' ' s).dropLast ≠ [] := by
          intro h0
          have := congrArg List.length h0
          simp at this
          omega
        rw [h.defs _ hne', Ne, findDef_none, Decidable.not_not]
        exact h2 hl
      · have hnil : (splitOn ' ' s).dropLast = [] := by
          apply List.eq_nil_of_length_eq_zero
          simp
          omega
        rw [hnil]
        simp [lookupDef, getDefinition]
    obtain ⟨t1, ha⟩ := this
    obtain ⟨t2, h'⟩ := ih t1 _ (holds_add h d _ hne ha) (by simpa using h3)
    exact ⟨t2, by rw [makeTree, (addDefinition_ok t t1 _).2 ⟨d, s, rfl, hk, hv, ha⟩]; exact h'⟩

theorem orderedAfter_iff (added ps : List (List Str)) : OrderedAfter added ps ↔
    ∀ before path after, ps = before ++ path :: after →
      path ∉ added ++ before ∧ (1 < path.length → path.dropLast ∈ added ++ before) := by
  induction ps generalizing added with
  | nil => simp [OrderedAfter]
  | cons p ps ih =>
    simp only [OrderedAfter, ih]
    constructor
    · rintro ⟨h1, h2, h3⟩ before path after he
      cases before with
      | nil =>
        simp only [List.nil_append, List.cons.injEq] at he
        obtain ⟨rfl, rfl⟩ := he
        simpa using ⟨h1, h2⟩
      | cons b bs =>
        simp only [List.cons_append, List.cons.injEq] at he
        obtain ⟨rfl, rfl⟩ := he
        have := h3 bs path after rfl
        simpa using this
    · intro h
      refine ⟨?_, ?_, fun before path after he => ?_⟩
      · have := (h [] p ps rfl).1
        simpa using this
      · have := (h [] p ps rfl).2
        simpa using this
      · have := h (p :: before) path after (by simp [he])
        simpa using this

theorem haveDefs_paths {vs : List Val} {ps : List (List Str × List (Key × Val))} (h : HaveDefs vs ps) :
    Doc.HavePaths vs (ps.map (·.1)) := by
  induction h with
  | nil => exact .nil
  | cons d s vs ps hk hv _ ih => exact .cons _ _ _ _ ⟨d, s, rfl, hk, hv, rfl⟩ ih

theorem havePaths_defs {vs : List Val} {ps : List (List Str)} (h : Doc.HavePaths vs ps) :
    ∃ qs, HaveDefs vs qs ∧ qs.map (·.1) = ps := by
  induction h with
  | nil => exact ⟨[], .nil, rfl⟩
  | cons v vs p ps hp _ ih =>
    obtain ⟨d, s, rfl, hk, hv, rfl⟩ := hp
    obtain ⟨qs, hq, he⟩ := ih
    exact ⟨_, .cons d s vs qs hk hv hq, by simp [he]⟩

theorem orderedAfter_nodup (added ps : List (List Str)) (h : OrderedAfter added ps) :
    ps.Nodup ∧ ∀ p ∈ ps, p ∉ added := by
  induction ps generalizing added with
  | nil => simp
  | cons p ps ih =>
    obtain ⟨h1, _, h3⟩ := h
    obtain ⟨a, b⟩ := ih _ h3
    refine ⟨List.nodup_cons.2 ⟨fun hp => ?_, a⟩, fun q hq => ?_⟩
    · exact b p hp (by simp)
    · rcases List.mem_cons.1 hq with rfl | hq
      · exact h1
      · exact fun h => b q hq (by simp [h])

theorem findDef_mem {qs : List (List Str × List (Key × Val))} {p : List Str} {d : List (Key × Val)}
    (h : findDef qs p = some d) : (p, d) ∈ qs := by
  simp only [findDef, Option.map_eq_some_iff] at h
  obtain ⟨e, he, rfl⟩ := h
  have h1 := List.find?_some he
  have h2 := List.mem_of_find?_eq_some he
  simp only [decide_eq_true_eq] at h1
  rw [← h1]
  exact h2

theorem mem_findDef {qs : List (List Str × List (Key × Val))} {p : List Str} {d : List (Key × Val)}
    (hn : (qs.map (·.1)).Nodup) (h : (p, d) ∈ qs) : findDef qs p = some d := by
  induction qs with
  | nil => simp at h
  | cons a r ih =>
    simp only [List.map_cons, List.nodup_cons] at hn
    simp only [findDef, List.find?_cons]
    rcases List.mem_cons.1 h with h | h
    · subst h
      simp
    · by_cases ha : a.1 = p
      · exact absurd (List.mem_map.2 ⟨_, h, ha.symm⟩) hn.1
      · simp only [decide_eq_false ha]
        exact ih hn.2 h

/-! ## Repeatable positionals -/

theorem insertPos_perm (x : Val) (l : List Val) : (insertPos x l).Perm (x :: l) := by
  induction l with
  | nil => exact List.Perm.refl _
  | cons y r ih =>
    simp only [insertPos]
    split
    · exact List.Perm.refl _
    · exact (List.Perm.cons y ih).trans (List.Perm.swap x y r)

theorem insertPos_sorted (x : Val) (l : List Val) (h : l.Pairwise (fun a b => posNumber a ≤ posNumber b)) :
    (insertPos x l).Pairwise (fun a b => posNumber a ≤ posNumber b) := by
  induction l with
  | nil => simp [insertPos]
  | cons y r ih =>
    obtain ⟨h1, h2⟩ := List.pairwise_cons.1 h
    simp only [insertPos]
    split
    · rename_i hlt
      refine List.pairwise_cons.2 ⟨fun z hz => ?_, h⟩
      rcases List.mem_cons.1 hz with rfl | hz
      · omega
      · have := h1 z hz
        omega
    · rename_i hlt
      refine List.pairwise_cons.2 ⟨fun z hz => ?_, ih h2⟩
      rcases List.mem_cons.1 ((insertPos_perm x r).mem_iff.1 hz) with rfl | hz
      · omega
      · exact h1 z hz

theorem sortPositionals_spec (l : List Val) :
    (sortPositionals l).Perm l ∧ (sortPositionals l).Pairwise (fun a b => posNumber a ≤ posNumber b) := by
  have : ∀ (l acc : List Val), acc.Pairwise (fun a b => posNumber a ≤ posNumber b) →
      (l.foldl (fun acc x => insertPos x acc) acc).Perm (acc ++ l) ∧
      (l.foldl (fun acc x => insertPos x acc) acc).Pairwise (fun a b => posNumber a ≤ posNumber b) := by
    intro l
    induction l with
    | nil => intro acc h; simpa using h
    | cons x r ih =>
      intro acc h
      obtain ⟨h1, h2⟩ := ih (insertPos x acc) (insertPos_sorted x acc h)
      refine ⟨h1.trans ?_, h2⟩
      have := (insertPos_perm x acc).append_right r
      exact this.trans (by simpa using (List.perm_middle (a := x) (l₁ := acc) (l₂ := r)).symm)
  have h := this l [] .nil
  rw [List.nil_append] at h
  exact h

theorem repeatableLoop_some (n : Int) (l : List Val) (h : ∀ p ∈ l, n ≤ posNumber p) (r : Option Int) :
    repeatableLoop (some n) l = .ok r ↔ r = some n ∧ ∀ p ∈ l, posNumber p = n := by
  induction l with
  | nil => simp [repeatableLoop, eq_comm]
  | cons p ps ih =>
    have hp := h p (by simp)
    have ih := ih (fun q hq => h q (by simp [hq]))
    simp only [repeatableLoop, List.forall_mem_cons]
    by_cases he : posNumber p = n
    · rw [he]
      simp only [ne_eq, not_true, if_false, true_and]
      split
      · exact ih
      · rw [if_neg (by omega)]; exact ih
    · split
      · rw [if_pos (fun h => he h.symm)]
        simp [he]
      · rw [if_pos (by omega)]
        simp [he]

theorem repeatableLoop_none (l : List Val) (h : l.Pairwise (fun a b => posNumber a ≤ posNumber b)) (r : Option Int) :
    repeatableLoop none l = .ok r →
      (∀ p ∈ l, ∀ q ∈ l, posRepeatable p = true → posNumber q ≤ posNumber p) ∧
      (r.isSome = true ↔ ∃ p ∈ l, posRepeatable p = true) := by
  induction l with
  | nil =>
    intro h
    cases h
    simp
  | cons p ps ih =>
    obtain ⟨h1, h2⟩ := List.pairwise_cons.1 h
    simp only [repeatableLoop]
    by_cases hr : posRepeatable p = true
    · rw [if_pos hr, repeatableLoop_some _ _ h1]
      rintro ⟨rfl, hall⟩
      refine ⟨fun a ha b hb _ => ?_, ?_⟩
      · have e : ∀ x ∈ p :: ps, posNumber x = posNumber p := by
          intro x hx
          rcases List.mem_cons.1 hx with rfl | hx
          · rfl
          · exact hall x hx
        rw [e a ha, e b hb]
        exact Int.le_refl _
      · simp only [Option.isSome_some, true_iff]
        exact ⟨p, by simp, hr⟩
    · rw [if_neg hr]
      intro hl
      obtain ⟨a, b⟩ := ih h2 hl
      refine ⟨fun x hx y hy hrx => ?_, ?_⟩
      · rcases List.mem_cons.1 hx with rfl | hx'
        · exact absurd hrx hr
        · rcases List.mem_cons.1 hy with rfl | hy'
          · exact h1 x hx'
          · exact a x hx' y hy' hrx
      · rw [b]
        constructor
        · rintro ⟨x, hx, hr'⟩; exact ⟨x, by simp [hx], hr'⟩
        · rintro ⟨x, hx, hr'⟩
          rcases List.mem_cons.1 hx with rfl | hx
          · exact absurd hr' hr
          · exact ⟨x, hx, hr'⟩

theorem repeatableLoop_accepts (l : List Val) (h : l.Pairwise (fun a b => posNumber a ≤ posNumber b))
    (hall : ∀ p ∈ l, ∀ q ∈ l, posRepeatable p = true → posNumber q ≤ posNumber p) :
    ∃ r, repeatableLoop none l = .ok r := by
  induction l with
  | nil => exact ⟨none, rfl⟩
  | cons p ps ih =>
    obtain ⟨h1, h2⟩ := List.pairwise_cons.1 h
    simp only [repeatableLoop]
    by_cases hr : posRepeatable p = true
    · rw [if_pos hr]
      refine ⟨some (posNumber p), (repeatableLoop_some _ _ h1 _).2 ⟨rfl, fun q hq => ?_⟩⟩
      have a := h1 q hq
      have b := hall p (by simp) q (by simp [hq]) hr
      omega
    · rw [if_neg hr]
      exact ih h2 (fun a ha b hb => hall a (by simp [ha]) b (by simp [hb]))

theorem posNumber_of {p : Val} {n : Int} (h : Doc.NumberOf p n) : posNumber p = n := by
  obtain ⟨d, v, rfl, hv, hn⟩ := h
  rw [integer_numOf] at hn
  simp [posNumber, hv, hn]

theorem posRepeatable_iff (p : Val) : posRepeatable p = true ↔ Doc.Repeats p := by
  cases p <;> simp [posRepeatable, Doc.Repeats]

/-- What the check for repeatable positionals accepts. -/
theorem checkRepeatable_iff (root : DefTree) (d : List (Key × Val)) (node : DefTree)
    (hnode : getDefinition root (splitOn ' ' (strKey d (S "prog"))) = some node)
    (hnum : ∀ ps, getKey d (S "positionals") = some (.list ps) → ∀ p ∈ ps, ∃ n, Doc.NumberOf p n) :
    checkRepeatable root d = .ok () ↔
      ∀ ps, getKey d (S "positionals") = some (.list ps) →
        (∀ p ∈ ps, ∀ q ∈ ps, ∀ n m, Doc.Repeats p → Doc.NumberOf p n → Doc.NumberOf q m → m ≤ n) ∧
        (node.subs ≠ [] → ∀ p ∈ ps, ¬ Doc.Repeats p) := by
  unfold checkRepeatable
  split
  · rename_i ps hps
    have hnum := hnum ps hps
    obtain ⟨hperm, hsort⟩ := sortPositionals_spec ps
    rw [except_bind_ok]
    simp only [hnode, need_ok, hps, Option.some.injEq, Val.list.injEq, forall_eq']
    constructor
    · rintro ⟨r, hr, hsub⟩
      obtain ⟨h1, h2⟩ := repeatableLoop_none _ hsort r hr
      refine ⟨fun p hp q hq n m hrep hn hm => ?_, fun hne p hp hrep => ?_⟩
      · have := h1 p (hperm.mem_iff.2 hp) q (hperm.mem_iff.2 hq) ((posRepeatable_iff p).2 hrep)
        rw [posNumber_of hn, posNumber_of hm] at this
        exact this
      · have : r.isSome = true := h2.2 ⟨p, hperm.mem_iff.2 hp, (posRepeatable_iff p).2 hrep⟩
        rw [this] at hsub
        cases hs : node.subs with
        | nil => exact hne hs
        | cons a b => simp [hs] at hsub
    · rintro ⟨h1, h2⟩
      obtain ⟨r, hr⟩ := repeatableLoop_accepts _ hsort (fun p hp q hq hrep => by
        obtain ⟨n, hn⟩ := hnum p (hperm.mem_iff.1 hp)
        obtain ⟨m, hm⟩ := hnum q (hperm.mem_iff.1 hq)
        rw [posNumber_of hn, posNumber_of hm]
        exact h1 p (hperm.mem_iff.1 hp) q (hperm.mem_iff.1 hq) n m ((posRepeatable_iff p).1 hrep) hn hm)
      refine ⟨r, hr, ?_⟩
      cases hs : node.subs with
      | nil => simp
      | cons a b =>
        have hno := h2 (by simp [hs])
        have := (repeatableLoop_none _ hsort r hr).2
        cases hri : r.isSome with
        | false => simp
        | true =>
          obtain ⟨p, hp, hrep⟩ := this.1 hri
          exact absurd ((posRepeatable_iff p).1 hrep) (hno p (hperm.mem_iff.1 hp))
  · rename_i h
    simp only [true_iff]
    intro ps hps
    exact absurd hps (h ps)

/-! ## The whole validation -/

/-- The conditions on the positionals of one definition. -/
def RepeatOk (paths : List (List Str)) (path : List Str) (d : List (Key × Val)) : Prop :=
  ∀ ps, getKey d (S "positionals") = some (.list ps) →
    (∀ p ∈ ps, ∀ q ∈ ps, ∀ n m, Doc.Repeats p → Doc.NumberOf p n → Doc.NumberOf q m → m ≤ n) ∧
    ((∃ sub, path ++ [sub] ∈ paths) → ∀ p ∈ ps, ¬ Doc.Repeats p)

theorem checkNodes_ok (env : ValEnv) (root : DefTree) (l : List DefTree) : checkNodes env root l = .ok () ↔
    ∀ t ∈ l, checkDefinition env t.definition = .ok () ∧ checkRepeatable root t.definition = .ok () := by
  induction l with
  | nil => simp [checkNodes]
  | cons t l ih => simp [checkNodes, except_unit_bind_ok, ih, and_assoc]

theorem haveDefs_prog {vs : List Val} {qs : List (List Str × List (Key × Val))} (h : HaveDefs vs qs)
    {p : List Str} {d : List (Key × Val)} (hm : (p, d) ∈ qs) :
    ∃ s, getKey d (S "prog") = some (.str s) ∧ p = splitOn ' ' s ∧ .dict d ∈ vs := by
  induction h with
  | nil => simp at hm
  | cons d' s vs ps hk hv _ ih =>
    rcases List.mem_cons.1 hm with hm | hm
    · simp only [Prod.mk.injEq] at hm
      obtain ⟨rfl, rfl⟩ := hm
      exact ⟨s, hk, rfl, by simp⟩
    · obtain ⟨s', h1, h2, h3⟩ := ih hm
      exact ⟨s', h1, h2, by simp [h3]⟩

theorem haveDefs_mem {vs : List Val} {qs : List (List Str × List (Key × Val))} (h : HaveDefs vs qs)
    {d : List (Key × Val)} (hm : .dict d ∈ vs) : ∃ p, (p, d) ∈ qs := by
  induction h with
  | nil => simp at hm
  | cons d' s vs ps hk hv _ ih =>
    rcases List.mem_cons.1 hm with hm | hm
    · injection hm with hm
      subst hm
      exact ⟨_, List.mem_cons_self⟩
    · obtain ⟨p, hp⟩ := ih hm
      exact ⟨p, by simp [hp]⟩

/-- Numbers of positionals that were accepted. -/
theorem numbers_of_checked (env : ValEnv) (d : List (Key × Val)) (h : checkDefinition env d = .ok ()) :
    ∀ ps, getKey d (S "positionals") = some (.list ps) → ∀ p ∈ ps, ∃ n, Doc.NumberOf p n := by
  intro ps hps p hp
  obtain ⟨q, rfl, hq⟩ := (definition_sound env d h).positionals ps hps p hp
  obtain ⟨v, i, hv, hi, _⟩ := hq.number
  exact ⟨i, q, v, rfl, hv, hi⟩

/-- The check of one node, in terms of the list of definitions. -/
theorem node_iff (env : ValEnv) (root : DefTree) (vs : List Val) (qs : List (List Str × List (Key × Val)))
    (hd : HaveDefs vs qs) (hh : Holds root qs) (hn : (qs.map (·.1)).Nodup) (p : List Str) (d : List (Key × Val))
    (hm : (p, d) ∈ qs) :
    (checkDefinition env d = .ok () ∧ checkRepeatable root d = .ok ()) ↔
      checkDefinition env d = .ok () ∧ RepeatOk (qs.map (·.1)) p d := by
  obtain ⟨s, hs, hp, _⟩ := haveDefs_prog hd hm
  have hne : p ≠ [] := hh.paths _ hm
  have hl : lookupDef root p = some d := by rw [hh.defs p hne, mem_findDef hn hm]
  have hstr : strKey d (S "prog") = s := by simp [strKey, hs]
  simp only [lookupDef, Option.map_eq_some_iff] at hl
  obtain ⟨node, hnode, _⟩ := hl
  have hsubs : node.subs ≠ [] ↔ ∃ sub, p ++ [sub] ∈ qs.map (·.1) := by
    have hna : namesAt root p = some (node.subs.map (·.1)) := by simp [namesAt, hnode]
    have key : ∀ sub, sub ∈ node.subs.map (·.1) ↔ p ++ [sub] ∈ qs.map (·.1) := by
      intro sub
      rw [mem_namesAt root p _ hna sub, hh.defs _ (by simp), Ne, findDef_none, Decidable.not_not]
    constructor
    · intro h
      cases hs : node.subs with
      | nil => exact absurd hs h
      | cons a b => exact ⟨a.1, (key a.1).1 (by simp [hs])⟩
    · rintro ⟨sub, h⟩ h0
      have := (key sub).2 h
      simp [h0] at this
  constructor
  · rintro ⟨h1, h2⟩
    refine ⟨h1, ?_⟩
    have := (checkRepeatable_iff root d node (by rw [hstr, ← hp]; exact hnode) (numbers_of_checked env d h1)).1 h2
    rw [hsubs] at this
    exact this
  · rintro ⟨h1, h2⟩
    refine ⟨h1, ?_⟩
    apply (checkRepeatable_iff root d node (by rw [hstr, ← hp]; exact hnode) (numbers_of_checked env d h1)).2
    rw [hsubs]
    exact h2

theorem oneProgram_iff (root : DefTree) (qs : List (List Str × List (Key × Val))) (hh : Holds root qs)
    (ho : OrderedAfter [] (qs.map (·.1))) :
    (∃ r t, root.subs = [(r, t)]) ↔ Doc.OneProgram (qs.map (·.1)) := by
  have hna : namesAt root [] = some (root.subs.map (·.1)) := by simp [namesAt, getDefinition]
  have key : ∀ sub, sub ∈ root.subs.map (·.1) ↔ [sub] ∈ qs.map (·.1) := by
    intro sub
    have := mem_namesAt root [] _ hna sub
    rw [this, hh.defs _ (by simp), Ne, findDef_none, Decidable.not_not]
    rfl
  have hnodup : (root.subs.map (·.1)).Nodup := hh.names [] _ hna
  -- the first word of a path is a program
  have hfirst : ∀ p ∈ qs.map (·.1), ∃ w, p.head? = some w ∧ [w] ∈ qs.map (·.1) := by
    intro p hp
    obtain ⟨d, hd⟩ : ∃ d, lookupDef root p = some d := by
      obtain ⟨e, he, rfl⟩ := List.mem_map.1 hp
      exact ⟨_, by rw [hh.defs _ (hh.paths e he), mem_findDef (orderedAfter_nodup _ _ ho).1 he]⟩
    cases p with
    | nil =>
      obtain ⟨e, he, h0⟩ := List.mem_map.1 hp
      exact absurd h0 (hh.paths e he)
    | cons w ws =>
      refine ⟨w, rfl, ?_⟩
      rw [← key]
      simp only [lookupDef, getDefinition, Option.map_eq_some_iff] at hd
      obtain ⟨n, hn, _⟩ := hd
      cases hs : subTree w root.subs with
      | none => simp [hs] at hn
      | some u => exact List.mem_map.2 ⟨_, subTree_mem hs, rfl⟩
  constructor
  · rintro ⟨r, t, hrt⟩
    refine ⟨r, (key r).1 (by simp [hrt]), fun p hp => ?_⟩
    obtain ⟨w, hw, hm⟩ := hfirst p hp
    have := (key w).2 hm
    simp [hrt] at this
    rw [hw, this]
  · rintro ⟨r, hr, hall⟩
    have hmem := (key r).2 hr
    have honly : ∀ x ∈ root.subs.map (·.1), x = r := by
      intro x hx
      have := hall [x] ((key x).1 hx)
      simpa using this
    match hs : root.subs with
    | [] => simp [hs] at hmem
    | [(a, t)] =>
      exact ⟨a, t, rfl⟩
    | (a, t) :: (b, u) :: rest =>
      rw [hs] at hnodup honly
      have h1 := honly a (by simp)
      have h2 := honly b (by simp)
      simp [h1, h2] at hnodup

/-- `validate` in terms of the list of definitions: it accepts exactly if every definition follows its
parent, there is one program, and the definitions of the program and its direct subcommands pass. -/
theorem validate_iff (env : ValEnv) (vs : List Val) :
    validate env vs = .ok () ↔ ∃ qs, HaveDefs vs qs ∧ OrderedAfter [] (qs.map (·.1)) ∧
      Doc.OneProgram (qs.map (·.1)) ∧ ∀ p d, (p, d) ∈ qs → p.length ≤ 2 →
        checkDefinition env d = .ok () ∧ RepeatOk (qs.map (·.1)) p d := by
  have core : ∀ (root : DefTree) (qs : List (List Str × List (Key × Val))), HaveDefs vs qs →
      OrderedAfter [] (qs.map (·.1)) → Holds root qs → ∀ r t, root.subs = [(r, t)] →
      (checkNodes env root t.getAll = .ok () ↔ ∀ p d, (p, d) ∈ qs → p.length ≤ 2 →
        checkDefinition env d = .ok () ∧ RepeatOk (qs.map (·.1)) p d) := by
    intro root qs hd ho hh r t hrt
    have hn := (orderedAfter_nodup _ _ ho).1
    have hgr : getDefinition root [r] = some t := by simp [getDefinition, hrt, subTree]
    have hr : ([r], t.definition) ∈ qs := findDef_mem (by
      rw [← hh.defs [r] (by simp)]; simp [lookupDef, hgr])
    have hsub : ∀ n u, subTree n t.subs = some u → ([r, n], u.definition) ∈ qs := by
      intro n u hu
      apply findDef_mem
      rw [← hh.defs [r, n] (by simp)]
      simp [lookupDef, getDefinition, hrt, subTree, hu]
    have hnd : (t.subs.map (·.1)).Nodup := hh.names [r] _ (by simp [namesAt, hgr])
    rw [checkNodes_ok]
    constructor
    · intro h p d hm hl
      obtain ⟨w, hw, _⟩ : ∃ w, p.head? = some w ∧ True := by
        cases p with
        | nil => exact absurd rfl (hh.paths _ hm)
        | cons w _ => exact ⟨w, rfl, trivial⟩
      have hlook : lookupDef root p = some d := by rw [hh.defs p (hh.paths _ hm), mem_findDef hn hm]
      rw [← node_iff env root vs qs hd hh hn p d hm]
      match p, hl, hw with
      | [a], _, hw =>
        simp only [lookupDef, getDefinition, hrt, subTree] at hlook
        by_cases ha : r = a
        · simp only [if_pos ha, Option.bind_some, Option.map_some, Option.some.injEq] at hlook
          subst hlook
          exact h t (by simp [DefTree.getAll])
        · simp [if_neg ha] at hlook
      | [a, b], _, hw =>
        simp only [lookupDef, getDefinition, hrt, subTree] at hlook
        by_cases ha : r = a
        · simp only [if_pos ha, Option.bind_some, Option.map_eq_some_iff] at hlook
          obtain ⟨u, hu, rfl⟩ := hlook
          cases hs : subTree b t.subs with
          | none => simp [hs] at hu
          | some u' =>
            simp only [hs, Option.bind_some, Option.some.injEq] at hu
            subst hu
            exact h u' (by
              simp only [DefTree.getAll, List.mem_cons, List.mem_map]
              exact .inr ⟨_, subTree_mem hs, rfl⟩)
        · simp [if_neg ha] at hlook
      | _ :: _ :: _ :: _, hl, _ => simp at hl
    · intro h x hx
      simp only [DefTree.getAll, List.mem_cons, List.mem_map] at hx
      rcases hx with rfl | ⟨⟨n, u⟩, hu, rfl⟩
      · exact (node_iff env root vs qs hd hh hn _ _ hr).2 (h _ _ hr (by simp))
      · have hm := hsub n u (mem_subTree hnd hu)
        exact (node_iff env root vs qs hd hh hn _ _ hm).2 (h _ _ hm (by simp))
  rw [validate, except_bind_ok]
  constructor
  · rintro ⟨root, hroot, h⟩
    obtain ⟨qs, hd, ho, hh⟩ := makeTree_holds vs _ root [] holds_empty hroot
    simp only [List.nil_append] at hh
    have hone : ∃ r t, root.subs = [(r, t)] := by
      revert h
      split
      · rename_i r t hrt
        exact fun _ => ⟨r, t, hrt⟩
      · simp
    obtain ⟨r, t, hrt⟩ := hone
    simp only [hrt] at h
    exact ⟨qs, hd, ho, (oneProgram_iff root qs hh ho).1 ⟨r, t, hrt⟩, (core root qs hd ho hh r t hrt).1 h⟩
  · rintro ⟨qs, hd, ho, hone, hall⟩
    obtain ⟨root, hroot⟩ := makeTree_accepts vs _ [] qs holds_empty hd ho
    obtain ⟨qs', hd', ho', hh⟩ := makeTree_holds vs _ root [] holds_empty hroot
    have hqq : qs' = qs := by
      clear hall hone ho ho' hh hroot core
      induction hd generalizing qs' with
      | nil => cases hd'; rfl
      | cons d s vs ps hk hv hd ih =>
        cases hd' with
        | cons _ s' _ ps' hk' hv' hd' =>
          rw [hk] at hk'
          simp only [Option.some.injEq, Val.str.injEq] at hk'
          rw [hk', ih ps' hd']
    subst hqq
    simp only [List.nil_append] at hh
    obtain ⟨r, t, hrt⟩ := (oneProgram_iff root qs' hh ho).2 hone
    refine ⟨root, hroot, ?_⟩
    simp only [hrt]
    exact (core root qs' hd ho hh r t hrt).2 hall

end CC
