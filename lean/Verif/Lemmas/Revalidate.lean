import Verif.Spec.RevalidateSpec
import Verif.Model.CompletionValidator
import Verif.Lemmas.ValidatorTree
import Verif.Props.DictImport
/-!
# Lemmas about checking command line objects again
-/

namespace CC

/-! ## The completer check depends on its context only through `command_arg` -/

/-- What the second context accepts of `command_arg`, the first does too. -/
def CtxLe (a b : ValCtx) : Prop := ∀ tr args, checkCommandArg a tr args = .ok () → checkCommandArg b tr args = .ok ()

theorem simple_ctx_none {env : ValEnv} (a b : ValCtx) {tr : List Str} {c : Str} {args : List Val}
    (h : checkSimple env a tr c args = none) : checkSimple env b tr c args = none := by
  by_cases h1 : c = S "command_arg"
  · subst h1
    unfold checkSimple at h
    rw [if_neg (by decide), if_neg (by decide), if_neg (by decide), if_pos rfl] at h
    cases h
  · have e : checkSimple env b tr c args = checkSimple env a tr c args := by
      unfold checkSimple
      rw [if_neg h1, if_neg h1]
    rw [e, h]

theorem simple_ctx_some {env : ValEnv} {a b : ValCtx} (hc : CtxLe a b) {tr : List Str} {c : Str} {args : List Val}
    (h : checkSimple env a tr c args = some (.ok ())) : checkSimple env b tr c args = some (.ok ()) := by
  by_cases h1 : c = S "command_arg"
  · subst h1
    have e : ∀ x, checkSimple env x tr (S "command_arg") args = some (checkCommandArg x tr args) := fun x => by
      unfold checkSimple
      rw [if_neg (by decide), if_neg (by decide), if_neg (by decide), if_pos rfl]
    rw [e, Option.some.injEq] at h ⊢
    exact hc _ _ h
  · have e : checkSimple env b tr c args = checkSimple env a tr c args := by
      unfold checkSimple
      rw [if_neg h1, if_neg h1]
    rw [e, h]

mutual
theorem complete_ctx (env : ValEnv) (a b : ValCtx) (hc : CtxLe a b) (trace : List Str) (args : List Val) (t : List Str)
    (h : checkComplete env a trace args = .ok t) : checkComplete env b trace args = .ok t := by
  rw [checkComplete.eq_def] at h ⊢
  split at h
  · rename_i c args
    cases hs : checkSimple env a trace c args with
    | some r =>
      simp only [hs] at h
      rw [except_unit_bind_ok] at h
      rw [h.1] at hs
      rw [simple_ctx_some hc hs]
      exact h.2
    | none =>
      simp only [hs] at h
      rw [simple_ctx_none a b hs]
      simp only
      clear hs
      by_cases h1 : c = S "combine"
      · rw [if_pos h1] at h ⊢
        split at h
        · rename_i cmds
          rw [except_unit_bind_ok] at h ⊢
          exact ⟨h.1, completers_ctx env a b hc _ cmds t h.2⟩
        · simp at h
      rw [if_neg h1] at h ⊢
      by_cases h2 : c = S "list"
      · rw [if_pos h2] at h ⊢
        split at h
        · rename_i cmd
          exact complete_ctx env a b hc _ cmd t h
        · rename_i cmd opts
          simp only [except_unit_bind_ok] at h ⊢
          exact ⟨h.1, complete_ctx env a b hc _ cmd t h.2⟩
        · simp at h
      rw [if_neg h2] at h ⊢
      by_cases h3 : c = S "prefix"
      · rw [if_pos h3] at h ⊢
        split at h
        · rename_i p cmd
          exact complete_ctx env a b hc _ cmd t h
        · simp at h
      rw [if_neg h3] at h ⊢
      by_cases h4 : c = S "key_value_list"
      · rw [if_pos h4] at h ⊢
        split at h
        · rename_i ps vs values cond
          rw [except_unit_bind_ok, except_unit_bind_ok, except_bind_ok] at h ⊢
          obtain ⟨g1, g2, t', hk, g3⟩ := h
          exact ⟨g1, g2, t', keyValues_ctx env a b hc true [] _ values t' hk, g3⟩
        · simp at h
      rw [if_neg h4] at h ⊢
      by_cases h5 : c = S "key_value_pair"
      · rw [if_pos h5] at h ⊢
        split at h
        · rename_i vs values cond
          simp only [except_unit_bind_ok] at h ⊢
          exact ⟨h.1, h.2.1, keyValues_ctx env a b hc false [] _ values t h.2.2⟩
        · simp at h
      · rw [if_neg h5] at h
        simp at h
  · simp at h
  termination_by sizeOf args
theorem completers_ctx (env : ValEnv) (a b : ValCtx) (hc : CtxLe a b) (trace : List Str) (cmds : List Val) (t : List Str)
    (h : checkCompleters env a trace cmds = .ok t) : checkCompleters env b trace cmds = .ok t := by
  rw [checkCompleters.eq_def] at h ⊢
  split at h
  · exact h
  · rename_i c r
    rw [except_bind_ok] at h ⊢
    obtain ⟨t', h1, h2⟩ := h
    exact ⟨t', complete_ctx env a b hc _ c t' h1, completers_ctx env a b hc _ r t h2⟩
  · simp at h
  termination_by sizeOf cmds
theorem keyValues_ctx (env : ValEnv) (a b : ValCtx) (hc : CtxLe a b) (isList : Bool) (seen : List Str)
    (trace : List Str) (defs : List Val) (t : List Str) (h : checkKeyValues env a isList seen trace defs = .ok t) :
    checkKeyValues env b isList seen trace defs = .ok t := by
  rw [checkKeyValues.eq_def] at h ⊢
  split at h
  · exact h
  · rename_i k d ex r
    rw [except_unit_bind_ok, except_bind_ok] at h ⊢
    obtain ⟨h1, key, h2, h⟩ := h
    refine ⟨h1, key, h2, ?_⟩
    rw [except_unit_bind_ok, except_unit_bind_ok] at h ⊢
    exact ⟨h.1, h.2.1, keyValues_ctx env a b hc isList _ _ r t h.2.2⟩
  · rename_i k d c ex r
    rw [except_unit_bind_ok, except_bind_ok] at h ⊢
    obtain ⟨h1, key, h2, h⟩ := h
    refine ⟨h1, key, h2, ?_⟩
    rw [except_unit_bind_ok, except_bind_ok] at h ⊢
    obtain ⟨h3, t', hc', h⟩ := h
    refine ⟨h3, t', complete_ctx env a b hc _ c t' hc', ?_⟩
    rw [except_unit_bind_ok] at h ⊢
    exact ⟨h.1, keyValues_ctx env a b hc isList _ _ r t h.2⟩
  · simp at h
  termination_by sizeOf defs
end

/-! ## Objects that the validator accepts -/

/-- A completer outside of positionals. -/
def CompleterOk (env : ValEnv) (c : List Val) : Prop := ∃ t, checkComplete env { definition := [] } [] c = .ok t

/-- `when` and `capture`. -/
def WhenOk (env : ValEnv) (w : Option Str) : Prop := ∀ s, w = some s → ∃ toks, parseWhen env.isRegex s = .ok toks

/-- An option whose definition is accepted. -/
structure OptAccepted (env : ValEnv) (o : Opt) : Prop where
  strings : o.strings ≠ [] ∧ ∀ s ∈ o.strings, isValidOptionString s = true
  metavar : o.metavar.isSome = true → o.complete.isSome = true
  optionalArg : o.optionalArg = true → o.complete.isSome = true
  hidden : ¬ (o.repeatable = .val true ∧ o.hidden = true)
  complete : ∀ c, o.complete = some c → CompleterOk env c
  when_ : WhenOk env o.when_
  capture : ∀ s, o.capture = some s → isValidVariableName s = true

theorem noPositional (d d' : List (Key × Val)) : CtxLe { definition := d } { definition := d' } := by
  intro tr args h
  unfold checkCommandArg at h
  simp [except_unit_bind_ok] at h

theorem textVal_given (x : Option Str) : textVal x ≠ .none ↔ x.isSome = true := by cases x <;> simp [textVal]

theorem optionEntries_iff (env : ValEnv) (ctx : ValCtx) (o : Opt) :
    checkOption env ctx (.dict (optionEntries o)) = .ok () ↔ OptAccepted env o := by
  rw [checkOption, handle_ok, option0_iff, checkCompleteAttr_iff, checkWhenAttr_iff, checkCaptureAttr_iff]
  have k1 : getKey (optionEntries o) (S "option_strings") = some (.list (o.strings.map .str)) := rfl
  have k2 : getKey (optionEntries o) (S "metavar") = some (textVal o.metavar) := rfl
  have k3 : getKey (optionEntries o) (S "complete") = some (listOrNone o.complete) := rfl
  have k4 : getKey (optionEntries o) (S "optional_arg") = some (.bool o.optionalArg) := rfl
  have k5 : getKey (optionEntries o) (S "repeatable") = some (extendedVal o.repeatable) := rfl
  have k6 : getKey (optionEntries o) (S "hidden") = some (.bool o.hidden) := rfl
  have k7 : getKey (optionEntries o) (S "group") = none := rfl
  have k8 : getKey (optionEntries o) (S "groups") = some (listOrNone (o.groups.map (fun g => g.map .str))) := rfl
  have k9 : getKey (optionEntries o) (S "when") = some (textVal o.when_) := rfl
  have k10 : getKey (optionEntries o) (S "capture") = some (textVal o.capture) := rfl
  have k11 : checkArgSep (optionEntries o) = .ok () := rfl
  have hent : Doc.Entries Doc.optionTable (optionEntries o) := by
    intro e he
    have text : ∀ x, Doc.OrNone Doc.Text (textVal x) := fun x => by
      cases x <;> simp [textVal, Doc.OrNone, Doc.Text]
    have flag : ∀ b, Doc.OrNone Doc.Flag (.bool b) := fun b => .inr ⟨b, rfl⟩
    have list : ∀ x, Doc.OrNone Doc.IsList (listOrNone x) := fun x => by
      cases x <;> simp [listOrNone, Doc.OrNone, Doc.IsList]
    have ext : Doc.ExtendedFlag (extendedVal o.repeatable) := by
      cases o.repeatable <;> simp [extendedVal, Doc.ExtendedFlag, Doc.Flag]
    simp only [optionEntries, List.mem_cons, List.not_mem_nil, or_false] at he
    rcases he with rfl | rfl | rfl | rfl | rfl | rfl | rfl | rfl | rfl | rfl | rfl | rfl
    · exact ⟨(S "option_strings", Doc.IsList), by simp [Doc.optionTable], rfl, _, rfl⟩
    · exact ⟨(S "metavar", Doc.OrNone Doc.Text), by simp [Doc.optionTable], rfl, text _⟩
    · exact ⟨(S "help", Doc.OrNone Doc.Text), by simp [Doc.optionTable], rfl, text _⟩
    · exact ⟨(S "complete", Doc.OrNone Doc.IsList), by simp [Doc.optionTable], rfl, list _⟩
    · exact ⟨(S "nosort", Doc.OrNone Doc.Flag), by simp [Doc.optionTable], rfl, flag _⟩
    · exact ⟨(S "groups", Doc.OrNone Doc.IsList), by simp [Doc.optionTable], rfl, list _⟩
    · exact ⟨(S "optional_arg", Doc.OrNone Doc.Flag), by simp [Doc.optionTable], rfl, flag _⟩
    · exact ⟨(S "repeatable", Doc.ExtendedFlag), by simp [Doc.optionTable], rfl, ext⟩
    · exact ⟨(S "final", Doc.OrNone Doc.Flag), by simp [Doc.optionTable], rfl, flag _⟩
    · exact ⟨(S "hidden", Doc.OrNone Doc.Flag), by simp [Doc.optionTable], rfl, flag _⟩
    · exact ⟨(S "when", Doc.OrNone Doc.Text), by simp [Doc.optionTable], rfl, text _⟩
    · exact ⟨(S "capture", Doc.OrNone Doc.Text), by simp [Doc.optionTable], rfl, text _⟩
  have hreq : ∀ q ∈ optionRules, q.required = true → hasKey (optionEntries o) q.name = true := by
    intro q hq hr
    simp only [optionRules, List.mem_cons, List.not_mem_nil, or_false] at hq
    rcases hq with rfl | hq
    · rfl
    · rcases hq with rfl | rfl | rfl | rfl | rfl | rfl | rfl | rfl | rfl | rfl | rfl | rfl | rfl <;> simp at hr
  have listGiven : ∀ x : Option (List Val), listOrNone x ≠ .none ↔ x.isSome = true := fun x => by
    cases x <;> simp [listOrNone]
  have extOn : ∀ e, extendedVal e = .bool true ↔ e = .val true := fun e => by cases e <;> simp [extendedVal]
  simp only [Doc.Given, Doc.On, k1, k2, k3, k4, k5, k6, k7, k8, k9, k10, k11, Option.some.injEq, exists_eq_left',
    textVal_given, listGiven, extOn, Val.bool.injEq, reduceCtorEq, false_and, exists_false, not_false_eq_true,
    true_and, and_true]
  constructor
  · rintro ⟨_, ⟨a, l, hs, hv⟩, h1, h2, h3, _, h5, h6, h7⟩
    simp only [Val.list.injEq] at hs
    refine ⟨⟨fun h0 => by simp [h0] at hs, fun s hm => ?_⟩, h1, h2, h3, fun c hc => ?_, fun s hs' => ?_, fun s hs' => ?_⟩
    · obtain ⟨s', e, h⟩ := hv (.str s) (by rw [← hs]; exact List.mem_map.2 ⟨s, hm, rfl⟩)
      cases e
      exact h
    · obtain ⟨t, ht⟩ := h5 c (by rw [hc]; rfl)
      exact ⟨t, complete_ctx env _ _ (noPositional _ _) _ _ _ ht⟩
    · rw [hs'] at h6
      obtain ⟨s', toks, e, h⟩ := h6 _ rfl (by simp [textVal])
      cases e
      exact ⟨toks, h⟩
    · rw [hs'] at h7
      obtain ⟨s', e, h⟩ := h7 _ rfl (by simp [textVal])
      cases e
      exact h
  · rintro ⟨⟨hne, hs⟩, h1, h2, h3, h5, h6, h7⟩
    refine ⟨⟨hent, hreq⟩, ?_, h1, h2, h3, ?_, fun c hc => ?_, fun v hv hn => ?_, fun v hv hn => ?_⟩
    · cases hl : o.strings with
      | nil => exact absurd hl hne
      | cons x xs =>
        refine ⟨.str x, xs.map .str, rfl, fun v hv => ?_⟩
        rw [← List.map_cons (f := Val.str), ← hl] at hv
        obtain ⟨s, hm, rfl⟩ := List.mem_map.1 hv
        exact ⟨s, rfl, hs s hm⟩
    · intro l hl v hv
      cases hg : o.groups with
      | none => rw [hg] at hl; simp [listOrNone] at hl
      | some g =>
        rw [hg] at hl
        simp only [Option.map_some, listOrNone, Val.list.injEq] at hl
        subst hl
        obtain ⟨s, _, rfl⟩ := List.mem_map.1 hv
        exact ⟨s, rfl⟩
    · cases hg : o.complete with
      | none => rw [hg] at hc; simp [listOrNone] at hc
      | some g =>
        rw [hg] at hc
        simp only [listOrNone, Val.list.injEq] at hc
        subst hc
        obtain ⟨t, ht⟩ := h5 g hg
        exact ⟨t, complete_ctx env _ _ (noPositional _ _) _ _ _ ht⟩
    · cases hw : o.when_ with
      | none => rw [hw] at hv; exact absurd hv.symm hn
      | some s =>
        rw [hw] at hv
        obtain ⟨toks, h⟩ := h6 s hw
        exact ⟨s, toks, hv.symm, h⟩
    · cases hw : o.capture with
      | none => rw [hw] at hv; exact absurd hv.symm hn
      | some s =>
        rw [hw] at hv
        exact ⟨s, hv.symm, h7 s hw⟩

/-- The context of a positional. -/
def posCtx (ps : List Pos) (p : Pos) : ValCtx :=
  { definition := [(.str (S "positionals"), .list (ps.map (fun q => .dict (positionalEntries q))))],
    positional := some (positionalEntries p) }

/-- A positional whose definition is accepted; `ps` are all positionals of the command. -/
structure PosAccepted (env : ValEnv) (ps : List Pos) (p : Pos) : Prop where
  number : 1 ≤ p.number
  complete : ∃ t, checkComplete env (posCtx ps p) [] p.complete = .ok t
  when_ : WhenOk env p.when_
  capture : ∀ s, p.capture = some s → isValidVariableName s = true

theorem sameCtx {a b : ValCtx} (h1 : a.positional = b.positional)
    (h2 : getKey a.definition (S "positionals") = getKey b.definition (S "positionals")) : CtxLe a b := by
  intro tr args h
  unfold checkCommandArg at h ⊢
  rw [h1, h2] at h
  exact h

theorem whenOk_iff (env : ValEnv) (w : Option Str) : WhenOk env w ↔ ∀ v, textVal w = v → v ≠ .none →
    ∃ s toks, v = .str s ∧ parseWhen env.isRegex s = .ok toks := by
  constructor
  · intro h v hv hn
    cases hw : w with
    | none => rw [hw] at hv; exact absurd hv.symm hn
    | some s =>
      rw [hw] at hv
      obtain ⟨toks, h'⟩ := h s hw
      exact ⟨s, toks, hv.symm, h'⟩
  · intro h s hs
    rw [hs] at h
    obtain ⟨s', toks, e, h'⟩ := h _ rfl (by simp [textVal])
    cases e
    exact ⟨toks, h'⟩

theorem captureOk_iff (w : Option Str) : (∀ s, w = some s → isValidVariableName s = true) ↔
    ∀ v, textVal w = v → v ≠ .none → ∃ s, v = .str s ∧ isValidVariableName s = true := by
  constructor
  · intro h v hv hn
    cases hw : w with
    | none => rw [hw] at hv; exact absurd hv.symm hn
    | some s =>
      rw [hw] at hv
      exact ⟨s, hv.symm, h s hw⟩
  · intro h s hs
    rw [hs] at h
    obtain ⟨s', e, h'⟩ := h _ rfl (by simp [textVal])
    cases e
    exact h'

theorem positionalEntries_iff (env : ValEnv) (d : List (Key × Val)) (ps : List Pos) (p : Pos)
    (hd : getKey d (S "positionals") = some (.list (ps.map (fun q => .dict (positionalEntries q))))) :
    checkPositional env { definition := d } (.dict (positionalEntries p)) = .ok () ↔ PosAccepted env ps p := by
  rw [checkPositional, handle_ok]
  unfold checkPositional0
  simp only [except_unit_bind_ok, matches_positional.dictionary, checkPosNumber_ok]
  rw [checkCompleteAttr_iff, checkWhenAttr_iff, checkCaptureAttr_iff]
  have k1 : getKey (positionalEntries p) (S "number") = some (.int p.number) := rfl
  have k3 : getKey (positionalEntries p) (S "complete") = some (.list p.complete) := rfl
  have k9 : getKey (positionalEntries p) (S "when") = some (textVal p.when_) := rfl
  have k10 : getKey (positionalEntries p) (S "capture") = some (textVal p.capture) := rfl
  have hent : Doc.Entries Doc.positionalTable (positionalEntries p) := by
    intro e he
    have text : ∀ x, Doc.OrNone Doc.Text (textVal x) := fun x => by
      cases x <;> simp [textVal, Doc.OrNone, Doc.Text]
    have flag : ∀ b, Doc.OrNone Doc.Flag (.bool b) := fun b => .inr ⟨b, rfl⟩
    simp only [positionalEntries, List.mem_cons, List.not_mem_nil, or_false] at he
    rcases he with rfl | rfl | rfl | rfl | rfl | rfl | rfl | rfl
    · exact ⟨(S "number", fun v => ∃ i, Doc.Integer v i), by simp [Doc.positionalTable], rfl, _, .int _⟩
    · exact ⟨(S "metavar", Doc.OrNone Doc.Text), by simp [Doc.positionalTable], rfl, text _⟩
    · exact ⟨(S "help", Doc.OrNone Doc.Text), by simp [Doc.positionalTable], rfl, text _⟩
    · exact ⟨(S "repeatable", Doc.OrNone Doc.Flag), by simp [Doc.positionalTable], rfl, flag _⟩
    · exact ⟨(S "complete", Doc.OrNone Doc.IsList), by simp [Doc.positionalTable], rfl, .inr ⟨_, rfl⟩⟩
    · exact ⟨(S "nosort", Doc.OrNone Doc.Flag), by simp [Doc.positionalTable], rfl, flag _⟩
    · exact ⟨(S "when", Doc.OrNone Doc.Text), by simp [Doc.positionalTable], rfl, text _⟩
    · exact ⟨(S "capture", Doc.OrNone Doc.Text), by simp [Doc.positionalTable], rfl, text _⟩
  have hreq : ∀ q ∈ positionalRules, q.required = true → hasKey (positionalEntries p) q.name = true := by
    intro q hq hr
    simp only [positionalRules, List.mem_cons, List.not_mem_nil, or_false] at hq
    rcases hq with rfl | hq
    · rfl
    · rcases hq with rfl | rfl | rfl | rfl | rfl | rfl | rfl <;> simp at hr
  have hctx : CtxLe { definition := d, positional := some (positionalEntries p) } (posCtx ps p) :=
    sameCtx rfl (by rw [hd]; rfl)
  have hctx' : CtxLe (posCtx ps p) { definition := d, positional := some (positionalEntries p) } :=
    sameCtx rfl (by rw [hd]; rfl)
  simp only [k1, k3, k9, k10, Option.some.injEq, Val.list.injEq, forall_eq']
  constructor
  · rintro ⟨_, ⟨v, i, rfl, hi, h1⟩, ⟨t, ht⟩, h6, h7⟩
    refine ⟨?_, ⟨t, complete_ctx env _ _ hctx _ _ _ ht⟩, (whenOk_iff _ _).2 (fun v hv hn => ?_), (captureOk_iff _).2 (fun v hv hn => ?_)⟩
    · cases hi
      omega
    · subst hv; exact h6 hn
    · subst hv; exact h7 hn
  · rintro ⟨h1, ⟨t, ht⟩, h6, h7⟩
    exact ⟨⟨hent, hreq⟩, ⟨_, _, rfl, .int _, by omega⟩, ⟨t, complete_ctx env _ _ hctx' _ _ _ ht⟩,
      (whenOk_iff _ _).1 h6 _ rfl, (captureOk_iff _).1 h7 _ rfl⟩

/-- A command whose definition is accepted. -/
structure CmdAccepted (env : ValEnv) (path : Str) (d : CmdData) : Prop where
  prog : validProg path = true
  aliases : ∀ a ∈ d.aliases, Doc.NonBlank (.str a) ∧ Doc.NoSpaces (.str a)
  wraps : ∀ w, d.wraps = some w → Doc.NonBlank (.str w) ∧ Doc.NoSpaces (.str w) ∧ Doc.NoSpaces (.str path)
  options : ∀ o ∈ d.options, OptAccepted env o
  positionals : ∀ p ∈ d.positionals, PosAccepted env d.positionals p

theorem commandEntries_iff (env : ValEnv) (path : Str) (d : CmdData) :
    checkDefinition env (commandEntries path d) = .ok () ↔ CmdAccepted env path d := by
  unfold checkDefinition
  simp only [except_unit_bind_ok, matches_definition.dictionary, checkListAttr_ok, checkWord_ok, need_ok]
  have k1 : getKey (commandEntries path d) (S "prog") = some (.str path) := rfl
  have k2 : getKey (commandEntries path d) (S "aliases") = some (.list (d.aliases.map .str)) := rfl
  have k3 : getKey (commandEntries path d) (S "wraps") = some (textVal d.wraps) := rfl
  have k4 : getKey (commandEntries path d) (S "options") =
    some (.list (d.options.map (fun o => .dict (optionEntries o)))) := rfl
  have k5 : getKey (commandEntries path d) (S "positionals") =
    some (.list (d.positionals.map (fun p => .dict (positionalEntries p)))) := rfl
  have k6 : strKey (commandEntries path d) (S "prog") = path := rfl
  rw [checkWraps_ok _ path k1]
  have hent : Doc.Entries Doc.definitionTable (commandEntries path d) := by
    intro e he
    have text : ∀ x, Doc.OrNone Doc.Text (textVal x) := fun x => by
      cases x <;> simp [textVal, Doc.OrNone, Doc.Text]
    have list : ∀ x, Doc.OrNone Doc.IsList (.list x) := fun x => .inr ⟨x, rfl⟩
    have ext : ∀ x, Doc.ExtendedFlag (extendedVal x) := fun x => by
      cases x <;> simp [extendedVal, Doc.ExtendedFlag, Doc.Flag]
    simp only [commandEntries, List.mem_cons, List.not_mem_nil, or_false] at he
    rcases he with rfl | rfl | rfl | rfl | rfl | rfl | rfl | rfl | rfl
    · exact ⟨(S "prog", Doc.Text), by simp [Doc.definitionTable], rfl, _, rfl⟩
    · exact ⟨(S "help", Doc.OrNone Doc.Text), by simp [Doc.definitionTable], rfl, text _⟩
    · exact ⟨(S "aliases", Doc.OrNone Doc.IsList), by simp [Doc.definitionTable], rfl, list _⟩
    · exact ⟨(S "wraps", Doc.OrNone Doc.Text), by simp [Doc.definitionTable], rfl, text _⟩
    · exact ⟨(S "abbreviate_commands", Doc.ExtendedFlag), by simp [Doc.definitionTable], rfl, ext _⟩
    · exact ⟨(S "abbreviate_options", Doc.ExtendedFlag), by simp [Doc.definitionTable], rfl, ext _⟩
    · exact ⟨(S "inherit_options", Doc.ExtendedFlag), by simp [Doc.definitionTable], rfl, ext _⟩
    · exact ⟨(S "options", Doc.OrNone Doc.IsList), by simp [Doc.definitionTable], rfl, list _⟩
    · exact ⟨(S "positionals", Doc.OrNone Doc.IsList), by simp [Doc.definitionTable], rfl, list _⟩
  have hreq : ∀ q ∈ definitionRules, q.required = true → hasKey (commandEntries path d) q.name = true := by
    intro q hq hr
    simp only [definitionRules, List.mem_cons, List.not_mem_nil, or_false] at hq
    rcases hq with rfl | hq
    · rfl
    · rcases hq with rfl | rfl | rfl | rfl | rfl | rfl | rfl | rfl <;> simp at hr
  simp only [k1, k2, k3, k4, k5, k6, Option.some.injEq, Val.list.injEq, forall_eq', List.forall_mem_map,
    optionEntries_iff, positionalEntries_iff env _ _ _ k5, textVal_given]
  constructor
  · rintro ⟨_, h1, h2, h3, h4, h5⟩
    refine ⟨h1, h2, fun w hw => ?_, h4, h5⟩
    have := h3 (by rw [hw]; rfl)
    rw [hw] at this
    exact this
  · rintro ⟨h1, h2, h3, h4, h5⟩
    refine ⟨⟨hent, hreq⟩, h1, h2, fun hw => ?_, h4, h5⟩
    obtain ⟨w, hw⟩ := Option.isSome_iff_exists.1 hw
    rw [hw]
    exact h3 w hw

/-! ## The configuration -/

theorem applyOpt_fields (cfg : Config) (o : Opt) :
    (applyOpt cfg o).strings = o.strings ∧ (applyOpt cfg o).metavar = o.metavar ∧
    (applyOpt cfg o).complete = o.complete ∧ (applyOpt cfg o).optionalArg = o.optionalArg ∧
    (applyOpt cfg o).capture = o.capture ∧ ((applyOpt cfg o).hidden = true ↔ HiddenUnder cfg o) ∧
    ((applyOpt cfg o).repeatable = .val true ↔ RepeatableUnder cfg o) ∧
    (applyOpt cfg o).when_ = if cfg.disabledWhen then none else o.when_ := by
  unfold applyOpt HiddenUnder RepeatableUnder
  cases h1 : o.repeatable <;> cases h2 : cfg.disabledHidden <;> cases h3 : cfg.disabledFinal <;>
    cases h4 : cfg.disabledGroups <;> cases h5 : cfg.disabledRepeatable <;> cases h6 : cfg.disabledWhen <;>
    by_cases h7 : o.longSep = .inherit <;> simp [h1, h7]

theorem optAccepted_apply (env : ValEnv) (cfg : Config) (o : Opt) (h : OptAccepted env o) :
    OptAccepted env (applyOpt cfg o) ↔ ¬ (RepeatableUnder cfg o ∧ HiddenUnder cfg o) := by
  obtain ⟨e1, e2, e3, e4, e5, e6, e7, e8⟩ := applyOpt_fields cfg o
  constructor
  · intro h'
    have := h'.hidden
    rwa [e6, e7] at this
  · intro hn
    refine ⟨by rw [e1]; exact h.strings, by rw [e2, e3]; exact h.metavar, by rw [e4, e3]; exact h.optionalArg,
      by rw [e6, e7]; exact hn, by rw [e3]; exact h.complete, ?_, by rw [e5]; exact h.capture⟩
    rw [e8]
    cases cfg.disabledWhen with
    | true => intro s hs; simp at hs
    | false => exact h.when_

theorem applyPos_fields (cfg : Config) (p : Pos) :
    (applyPos cfg p).number = p.number ∧ (applyPos cfg p).complete = p.complete ∧
    (applyPos cfg p).repeatable = p.repeatable ∧ (applyPos cfg p).capture = p.capture ∧
    (applyPos cfg p).when_ = if cfg.disabledWhen then none else p.when_ := by
  unfold applyPos
  cases cfg.disabledWhen <;> simp

theorem anyCommandBefore_apply (cfg : Config) (n : Option Val) (ps : List Pos) :
    anyCommandBefore n ((ps.map (applyPos cfg)).map (fun q => .dict (positionalEntries q))) =
      anyCommandBefore n (ps.map (fun q => .dict (positionalEntries q))) := by
  have key : ∀ p, commandBefore n (.dict (positionalEntries (applyPos cfg p))) =
      commandBefore n (.dict (positionalEntries p)) := by
    intro p
    obtain ⟨e1, e2, _⟩ := applyPos_fields cfg p
    have a1 : ∀ q, getKey (positionalEntries q) (S "number") = some (.int q.number) := fun _ => rfl
    have a2 : ∀ q, getKey (positionalEntries q) (S "complete") = some (.list q.complete) := fun _ => rfl
    have a3 : ∀ q, hasSet (.dict (positionalEntries q)) (S "complete") = .ok true := fun _ => rfl
    unfold commandBefore
    simp only [a1, a2, a3, e1, e2]
  induction ps with
  | nil => rfl
  | cons p ps ih =>
    simp only [List.map_cons, anyCommandBefore, key, ih]

theorem posAccepted_apply (env : ValEnv) (cfg : Config) (ps : List Pos) (p : Pos) (h : PosAccepted env ps p) :
    PosAccepted env (ps.map (applyPos cfg)) (applyPos cfg p) := by
  obtain ⟨e1, e2, e3, e4, e5⟩ := applyPos_fields cfg p
  obtain ⟨t, ht⟩ := h.complete
  refine ⟨by rw [e1]; exact h.number, ⟨t, ?_⟩, ?_, by rw [e4]; exact h.capture⟩
  · rw [e2]
    refine complete_ctx env _ _ ?_ _ _ _ ht
    intro tr args hc
    have a1 : ∀ q, getKey (positionalEntries q) (S "number") = some (.int q.number) := fun _ => rfl
    have a2 : ∀ q, getKey (positionalEntries q) (S "repeatable") = some (.bool q.repeatable) := fun _ => rfl
    have a3 : ∀ q, isSet (positionalEntries q) (S "repeatable") = true := fun _ => rfl
    have a4 : ∀ ps p, getKey (posCtx ps p).definition (S "positionals") =
        some (.list (ps.map (fun q => .dict (positionalEntries q)))) := fun _ _ => rfl
    have a5 : ∀ ps p, (posCtx ps p).positional = some (positionalEntries p) := fun _ _ => rfl
    unfold checkCommandArg at hc ⊢
    simp only [a1, a2, a3, a4, a5, anyCommandBefore_apply, e1, e3] at hc ⊢
    exact hc
  · rw [e5]
    cases cfg.disabledWhen with
    | true => intro s hs; simp at hs
    | false => exact h.when_

theorem applyConfig_fields (cfg : Config) (d : CmdData) :
    (applyConfig cfg d).prog = d.prog ∧ (applyConfig cfg d).aliases = d.aliases ∧
    (applyConfig cfg d).wraps = d.wraps ∧ (applyConfig cfg d).options = d.options.map (applyOpt cfg) ∧
    (applyConfig cfg d).positionals = d.positionals.map (applyPos cfg) := by
  unfold applyConfig
  by_cases h1 : d.abbreviateCommands = .inherit <;> by_cases h2 : d.abbreviateOptions = .inherit <;>
    by_cases h3 : d.inheritOptions = .inherit <;> simp [h1, h2, h3]

theorem cmdAccepted_apply (env : ValEnv) (cfg : Config) (path : Str) (d : CmdData) (h : CmdAccepted env path d) :
    CmdAccepted env path (applyConfig cfg d) ↔ ∀ o ∈ d.options, ¬ (RepeatableUnder cfg o ∧ HiddenUnder cfg o) := by
  obtain ⟨_, e2, e3, e4, e5⟩ := applyConfig_fields cfg d
  constructor
  · intro h' o ho
    exact (optAccepted_apply env cfg o (h.options o ho)).1
      (h'.options _ (by rw [e4]; exact List.mem_map.2 ⟨o, ho, rfl⟩))
  · intro hn
    refine ⟨h.prog, by rw [e2]; exact h.aliases, by rw [e3]; exact h.wraps, fun o ho => ?_, fun p hp => ?_⟩
    · rw [e4] at ho
      obtain ⟨o, ho', rfl⟩ := List.mem_map.1 ho
      exact (optAccepted_apply env cfg o (h.options o ho')).2 (hn o ho')
    · rw [e5] at hp ⊢
      obtain ⟨p, hp', rfl⟩ := List.mem_map.1 hp
      exact posAccepted_apply env cfg _ p (h.positionals p hp')

end CC
