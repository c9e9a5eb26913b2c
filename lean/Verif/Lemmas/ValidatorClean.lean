import Verif.Lemmas.ValidatorTree
import Verif.Props.When
/-!
# When the validator raises nothing but schema errors
-/

namespace CC

open ShellGrammar (Tok)

/-- The only error is the validation error. -/
def Clean {α : Type} (r : Except Err α) : Prop := ∀ e, r = .error e → e = .schemaError

theorem clean_ok {α : Type} (a : α) : Clean (.ok a : Except Err α) := by intro e h; cases h

theorem clean_schema {α : Type} : Clean (.error .schemaError : Except Err α) := by
  intro e h; cases h; rfl

theorem clean_need (b : Bool) : Clean (need b) := by
  cases b
  · exact clean_schema
  · exact clean_ok _

theorem clean_bind {α β : Type} {x : Except Err α} {f : α → Except Err β} (hx : Clean x)
    (hf : ∀ a, x = .ok a → Clean (f a)) : Clean (x >>= f) := by
  cases x with
  | error e =>
    intro e' h
    have : e = e' := by cases h; rfl
    exact this ▸ hx e rfl
  | ok a => exact hf a rfl

theorem clean_type (v : Val) (ts : List Ty) : Clean (checkType v ts) := clean_need _

theorem clean_each {f : Val → Except Err Unit} (l : List Val) (h : ∀ v ∈ l, Clean (f v)) :
    Clean (checkEach f l) := by
  induction l with
  | nil => exact clean_ok _
  | cons v r ih =>
    rw [checkEach]
    exact clean_bind (h v (by simp)) (fun _ _ => ih (fun w hw => h w (by simp [hw])))

theorem clean_eachEntry {f : Val → Val → Except Err Unit} (hf : ∀ k v, Clean (f k v))
    (l : List (Key × Val)) : Clean (checkEachEntry f l) := by
  induction l with
  | nil => exact clean_ok _
  | cons e r ih =>
    obtain ⟨k, v⟩ := e
    rw [checkEachEntry]
    exact clean_bind (hf _ _) (fun _ _ => ih)

theorem clean_entries {rules : List Rule}
    (h : ∀ q ∈ rules, ∀ v, checkType v q.types = .ok () → Clean (q.check v)) (d : List (Key × Val)) :
    Clean (checkEntries rules d) := by
  induction d with
  | nil => exact clean_ok _
  | cons e r ih =>
    obtain ⟨k, v⟩ := e
    rw [checkEntries]
    split
    · exact clean_schema
    · next q hq =>
      exact clean_bind (clean_type _ _) (fun _ ht =>
        clean_bind (h q (List.mem_of_find?_eq_some hq) v ht) (fun _ _ => ih))

theorem clean_dictionary {rules : List Rule}
    (h : ∀ q ∈ rules, ∀ v, checkType v q.types = .ok () → Clean (q.check v)) (v : Val) :
    Clean (checkDictionary v rules) := by
  unfold checkDictionary
  split
  · exact clean_bind (clean_entries h _) (fun _ _ => clean_need _)
  · exact clean_schema

/-! ## Values of a known type -/

theorem clean_nonEmptyString {v : Val} (h : checkType v [.str] = .ok ()) : Clean (checkNonEmptyString v) := by
  obtain ⟨s, rfl⟩ := (type_str v).1 h
  exact clean_need _

theorem clean_noSpaces {v : Val} (h : checkType v [.str] = .ok ()) : Clean (checkNoSpaces v) := by
  obtain ⟨s, rfl⟩ := (type_str v).1 h
  exact clean_need _

theorem clean_char {v : Val} (h : checkType v [.str] = .ok ()) : Clean (checkChar v) := by
  obtain ⟨s, rfl⟩ := (type_str v).1 h
  exact clean_need _

theorem clean_nonEmptyList {v : Val} (h : checkType v [.list] = .ok ()) : Clean (checkNonEmpty v) := by
  obtain ⟨t, ht, hv⟩ := (checkType_ok _ _).1 h
  simp at ht; subst ht
  cases v <;> first | exact clean_need _ | cases hv

theorem clean_nonEmptyDict {v : Val} (h : checkType v [.dict] = .ok ()) : Clean (checkNonEmpty v) := by
  obtain ⟨t, ht, hv⟩ := (checkType_ok _ _).1 h
  simp at ht; subst ht
  cases v <;> first | exact clean_need _ | cases hv

theorem clean_extended (v : Val) : Clean (checkExtendedBool v) := by
  unfold checkExtendedBool
  split
  · exact clean_ok _
  · exact clean_need _
  · exact clean_schema

theorem clean_word (v : Val) : Clean (checkWord v) :=
  clean_bind (clean_type _ _) (fun _ h => clean_bind (clean_nonEmptyString h) (fun _ _ => clean_noSpaces h))

theorem clean_glob (env : ValEnv) (v : Val) : Clean (checkGlob env v) := by
  unfold checkGlob
  refine clean_bind (clean_type _ _) (fun _ h => clean_bind (clean_nonEmptyString h) (fun _ _ => ?_))
  obtain ⟨s, rfl⟩ := (type_str v).1 h
  exact clean_need _

theorem clean_listAttr {f : Val → Except Err Unit} (d : List (Key × Val)) (k : Str)
    (hf : ∀ l, getKey d k = some (.list l) → ∀ v ∈ l, Clean (f v)) : Clean (checkListAttr d k f) := by
  unfold checkListAttr
  split
  · next l hl => exact clean_each _ (hf l hl)
  · exact clean_ok _

theorem clean_dictAttr {f : Val → Val → Except Err Unit} (hf : ∀ k v, Clean (f k v)) (d : List (Key × Val))
    (k : Str) : Clean (checkDictAttr d k f) := by
  unfold checkDictAttr
  split
  · exact clean_eachEntry hf _
  · exact clean_ok _

theorem clean_optionsArg (args : List Val) : Clean (optionsArg args) := by
  unfold optionsArg
  split
  · exact clean_ok _
  · exact clean_ok _
  · exact clean_schema

/-! ## Completers -/

theorem clean_command (args : List Val) : Clean (checkCommand args) := by
  unfold checkCommand
  refine clean_bind (clean_optionsArg _) (fun d _ => clean_bind (clean_dictionary ?_ _)
    (fun _ _ => clean_bind (clean_need _) (fun _ _ => clean_need _)))
  intro q hq v hv
  simp only [List.mem_cons, List.not_mem_nil, or_false] at hq
  rcases hq with rfl | rfl | rfl <;> exact clean_nonEmptyString hv

theorem clean_filedir (env : ValEnv) (f l : Bool) (args : List Val) : Clean (checkFiledir env f l args) := by
  unfold checkFiledir
  refine clean_bind (clean_optionsArg _) (fun d _ => clean_bind (clean_dictionary ?_ _)
    (fun _ _ => clean_bind (clean_listAttr _ _ (fun _ _ v _ => clean_word v))
      (fun _ _ => clean_listAttr _ _ (fun _ _ v _ => clean_glob env v))))
  intro q hq v hv
  simp only [List.mem_append] at hq
  rcases hq with (hq | hq) | hq
  · simp only [List.mem_cons, List.not_mem_nil, or_false] at hq
    subst hq
    exact clean_nonEmptyString hv
  · cases f
    · simp at hq
    · simp only [if_true, List.mem_cons, List.not_mem_nil, or_false] at hq
      rcases hq with rfl | rfl | rfl
      · exact clean_nonEmptyList hv
      · exact clean_ok _
      · exact clean_nonEmptyList hv
  · cases l
    · simp at hq
    · simp only [if_true, List.mem_cons, List.not_mem_nil, or_false] at hq
      rcases hq with rfl | rfl
      · exact clean_char hv
      · exact clean_ok _

theorem clean_range (args : List Val) : Clean (checkRangeArgs args) := by
  have key : ∀ a b s, Clean (checkRangeNums a b s) := by
    intro a b s
    unfold checkRangeNums
    split
    · exact clean_bind (clean_need _) (fun _ _ => clean_bind (clean_need _) (fun _ _ => clean_need _))
    · exact clean_schema
  unfold checkRangeArgs
  split
  · exact key _ _ _
  · exact key _ _ _
  · exact clean_schema

theorem clean_valueList (args : List Val) : Clean (checkValueList args) := by
  unfold checkValueList
  split
  · next d =>
    refine clean_bind (clean_dictionary ?_ _) (fun _ h => ?_)
    · intro q hq v hv
      simp only [List.mem_cons, List.not_mem_nil, or_false] at hq
      rcases hq with rfl | rfl | rfl
      · exact clean_ok _
      · exact clean_char hv
      · exact clean_ok _
    · split
      · exact clean_bind (clean_need _) (fun _ _ => clean_eachEntry
          (fun k v => clean_bind (clean_type _ _) (fun _ _ => clean_type _ _)) _)
      · exact clean_bind (clean_need _) (fun _ _ => clean_each _ (fun _ _ => clean_type _ _))
      · next h1 h2 =>
        exfalso
        obtain ⟨he, hreq⟩ := (checkDictionary_ok _ _).1 h
        have hk := hreq _ List.mem_cons_self rfl
        rw [hasKey_given] at hk
        cases hg : getKey d (S "values") with
        | none => exact hk hg
        | some v =>
          obtain ⟨q, hq, hacc⟩ := he _ (getKey_mem hg)
          simp at hq
          subst hq
          obtain ⟨t, ht, hv⟩ := (checkType_ok _ _).1 hacc.1
          simp at ht
          cases v <;> first
            | exact h1 _ hg
            | exact h2 _ hg
            | (rcases ht with rfl | rfl <;> cases hv)
  · exact clean_schema

theorem clean_number (env : ValEnv) (types : List Ty) (args : List Val) : Clean (checkNumber env types args) := by
  unfold checkNumber
  refine clean_bind (clean_optionsArg _) (fun d _ => clean_bind (clean_dictionary ?_ _)
    (fun _ _ => clean_bind ?_ (fun _ _ => clean_dictAttr ?_ _ _)))
  · intro q hq v hv
    simp only [List.mem_cons, List.not_mem_nil, or_false] at hq
    rcases hq with rfl | rfl | rfl | rfl
    · exact clean_ok _
    · exact clean_ok _
    · exact clean_nonEmptyString hv
    · exact clean_nonEmptyDict hv
  · unfold checkMinMax
    split
    · exact clean_need _
    · exact clean_ok _
  · intro k v
    unfold checkSuffix
    exact clean_bind (clean_type _ _) (fun _ h1 => clean_bind (clean_type _ _)
      (fun _ h2 => clean_bind (clean_nonEmptyString h1) (fun _ _ => clean_nonEmptyString h2)))

theorem clean_choices (args : List Val) : Clean (checkChoices args) := by
  unfold checkChoices
  split
  · exact clean_each _ (fun _ _ => clean_type _ _)
  · exact clean_eachEntry (fun _ _ => clean_bind (clean_type _ _) (fun _ _ => clean_type _ _)) _
  · exact clean_schema

/-- A positional that `command_arg` can look at. -/
def Doc.Inspectable (p : Val) : Prop :=
  ∃ d, p = .dict d ∧ (Doc.Given d (S "complete") →
    (∃ c rest, getKey d (S "complete") = some (.list (c :: rest))) ∧
    ∃ n, getKey d (S "number") = some n ∧ Doc.Number n)

theorem clean_commandBefore (number : Option Val) (p : Val) (hp : Doc.Inspectable p) :
    Clean (commandBefore number p) := by
  obtain ⟨d, rfl, h⟩ := hp
  unfold commandBefore
  refine clean_bind (clean_ok _) (fun b hb => ?_)
  have hb' : isSet d (S "complete") = b := by
    have : (Except.ok (isSet d (S "complete")) : Except Err Bool) = .ok b := hb
    cases this; rfl
  split
  · next ht =>
    obtain ⟨⟨c, rest, hc⟩, n, hn, hnum⟩ := h ((isSet_iff _ _).1 (by rw [hb', ht]))
    simp only [hc, Option.getD_some, hn]
    refine clean_bind (clean_ok _) (fun b' _ => ?_)
    split
    · rcases hnum with ⟨i, hi⟩ | ⟨t, rfl⟩
      · have := (integer_numOf _ _).1 hi
        cases hi <;> simp only [numOf] <;> exact clean_ok _
      · exact clean_ok _
    · exact clean_ok _
  · exact clean_ok _

theorem clean_anyCommandBefore (number : Option Val) (ps : List Val) (hp : ∀ p ∈ ps, Doc.Inspectable p) :
    Clean (anyCommandBefore number ps) := by
  induction ps with
  | nil => exact clean_ok _
  | cons p ps ih =>
    rw [anyCommandBefore]
    refine clean_bind (clean_commandBefore _ _ (hp p (by simp))) (fun b _ => ?_)
    split
    · exact clean_ok _
    · exact ih (fun q hq => hp q (by simp [hq]))

/-- What is known about the context: its positionals can be inspected. -/
def GoodCtx (ctx : ValCtx) : Prop :=
  ctx.positional = none ∨
  ∃ ps, getKey ctx.definition (S "positionals") = some (.list ps) ∧ ∀ p ∈ ps, Doc.Inspectable p

theorem clean_commandArg (ctx : ValCtx) (hctx : GoodCtx ctx) (trace : List Str) (args : List Val) :
    Clean (checkCommandArg ctx trace args) := by
  unfold checkCommandArg
  refine clean_bind (clean_need _) (fun _ _ => clean_bind (clean_need _) (fun _ _ => ?_))
  split
  · exact clean_schema
  · next p hp =>
    refine clean_bind (clean_need _) (fun _ _ => ?_)
    rcases hctx with hc | ⟨ps, hps, hall⟩
    · rw [hc] at hp; cases hp
    · simp only [hps]
      exact clean_bind (clean_anyCommandBefore _ _ hall) (fun _ _ => clean_need _)

theorem clean_if {p : Prop} [Decidable p] {x r : Except Err Unit} {y : Option (Except Err Unit)} (hx : Clean x)
    (hy : y = some r → Clean r) (h : (if p then some x else y) = some r) : Clean r := by
  split at h
  · cases h; exact hx
  · exact hy h

theorem clean_simple (env : ValEnv) (ctx : ValCtx) (hctx : GoodCtx ctx) (trace : List Str) (c : Str)
    (args : List Val) (r : Except Err Unit) (h : checkSimple env ctx trace c args = some r) : Clean r := by
  have hpat : Clean (checkPattern env args) := by
    unfold checkPattern; split
    · exact clean_need _
    · exact clean_schema
  have hexec : Clean (checkExec args) := by
    unfold checkExec; split
    · exact clean_ok _
    · exact clean_schema
  have hdate : Clean (checkDate args) := by
    unfold checkDate; split
    · exact clean_need _
    · exact clean_schema
  have hip : Clean (checkIpAddress args) := by
    unfold checkIpAddress; split
    · exact clean_ok _
    · exact clean_need _
    · exact clean_schema
  have hkl : Clean (checkKeyValueListExec args) := by
    unfold checkKeyValueListExec; split
    · exact clean_need _
    · exact clean_schema
  have hkp : Clean (checkKeyValuePairExec args) := by
    unfold checkKeyValuePairExec; split
    · exact clean_need _
    · exact clean_schema
  have hnone : Clean (checkNone trace args) := clean_bind (clean_need _) (fun _ _ => clean_need _)
  unfold checkSimple at h
  refine clean_if (clean_need _)
    (clean_if (clean_choices _)
    (clean_if (clean_command _)
    (clean_if (clean_commandArg ctx hctx _ _)
    (clean_if hdate
    (clean_if (clean_filedir _ _ _ _)
    (clean_if (clean_filedir _ _ _ _)
    (clean_if hexec
    (clean_if hexec
    (clean_if hexec
    (clean_if (clean_filedir _ _ _ _)
    (clean_if (clean_filedir _ _ _ _)
    (clean_if (clean_number _ _ _)
    (clean_if hpat
    (clean_if (clean_number _ _ _)
    (clean_if hip
    (clean_if hkl
    (clean_if hkp
    (clean_if hpat
    (clean_if hnone
    (clean_if (clean_range _)
    (clean_if (clean_valueList _)
    (fun h => by cases h)))))))))))))))))))))) h

theorem clean_conditionFunc (l : List Val) : Clean (checkConditionFunc l) := by
  unfold checkConditionFunc
  split
  · exact clean_ok _
  · exact clean_ok _
  · exact clean_need _
  · exact clean_schema

theorem clean_listOptions (v : Val) : Clean (checkListOptions v) := by
  unfold checkListOptions
  refine clean_dictionary ?_ _
  intro q hq v hv
  simp only [List.mem_cons, List.not_mem_nil, or_false] at hq
  rcases hq with rfl | rfl
  · exact clean_char hv
  · exact clean_ok _

theorem clean_keyDescription (k d : Val) : Clean (checkKeyDescription k d) := by
  unfold checkKeyDescription
  split
  · exact clean_bind (clean_need _) (fun _ _ => clean_ok _)
  · exact clean_bind (clean_need _) (fun _ _ => clean_ok _)
  · exact clean_schema

theorem clean_excludes (l : List Val) : Clean (checkExcludes l) := by
  unfold checkExcludes
  split
  · exact clean_ok _
  · exact clean_each _ (fun _ _ => clean_bind (clean_type _ _) (fun _ h => clean_nonEmptyString h))
  · exact clean_schema

theorem clean_excludesExist (keys : List Val) (l : List Val) : Clean (excludesExist keys l) := by
  fun_induction excludesExist keys l with
  | case1 => exact clean_ok _
  | case2 _ _ _ ex r ih => exact clean_bind (clean_need _) (fun _ _ => ih)
  | case3 _ _ _ ih => exact ih

mutual
theorem clean_complete (env : ValEnv) (ctx : ValCtx) (hctx : GoodCtx ctx) (trace : List Str) (args : List Val) :
    Clean (checkComplete env ctx trace args) := by
  rw [checkComplete.eq_def]
  split
  · rename_i c args
    cases hs : checkSimple env ctx trace c args with
    | some r =>
      exact clean_bind (clean_simple env ctx hctx trace c args r hs) (fun _ _ => clean_ok _)
    | none =>
      simp only
      by_cases h1 : c = S "combine"
      · rw [if_pos h1]
        split
        · rename_i cmds
          exact clean_bind (clean_need _) (fun _ _ => clean_completers env ctx hctx _ cmds)
        · exact clean_schema
      rw [if_neg h1]
      by_cases h2 : c = S "list"
      · rw [if_pos h2]
        split
        · rename_i cmd
          exact clean_complete env ctx hctx _ cmd
        · rename_i cmd opts
          exact clean_bind (clean_listOptions _) (fun _ _ => clean_complete env ctx hctx _ cmd)
        · exact clean_schema
      rw [if_neg h2]
      by_cases h3 : c = S "prefix"
      · rw [if_pos h3]
        split
        · rename_i p cmd
          exact clean_complete env ctx hctx _ cmd
        · exact clean_schema
      rw [if_neg h3]
      by_cases h4 : c = S "key_value_list"
      · rw [if_pos h4]
        split
        · rename_i ps vs values cond
          exact clean_bind (clean_conditionFunc _) (fun _ _ => clean_bind (clean_need _)
            (fun _ _ => clean_bind (clean_keyValues env ctx hctx true [] _ values)
              (fun _ _ => clean_bind (clean_excludesExist _ _) (fun _ _ => clean_ok _))))
        · exact clean_schema
      rw [if_neg h4]
      by_cases h5 : c = S "key_value_pair"
      · rw [if_pos h5]
        split
        · rename_i vs values cond
          exact clean_bind (clean_conditionFunc _) (fun _ _ => clean_bind (clean_need _)
            (fun _ _ => clean_keyValues env ctx hctx false [] _ values))
        · exact clean_schema
      · rw [if_neg h5]
        exact clean_schema
  · exact clean_schema
  termination_by sizeOf args
theorem clean_completers (env : ValEnv) (ctx : ValCtx) (hctx : GoodCtx ctx) (trace : List Str) (cmds : List Val) :
    Clean (checkCompleters env ctx trace cmds) := by
  rw [checkCompleters.eq_def]
  split
  · exact clean_ok _
  · rename_i c r
    exact clean_bind (clean_complete env ctx hctx _ c) (fun t _ => clean_completers env ctx hctx t r)
  · exact clean_schema
  termination_by sizeOf cmds
theorem clean_keyValues (env : ValEnv) (ctx : ValCtx) (hctx : GoodCtx ctx) (isList : Bool) (seen : List Str)
    (trace : List Str) (defs : List Val) : Clean (checkKeyValues env ctx isList seen trace defs) := by
  rw [checkKeyValues.eq_def]
  split
  · exact clean_ok _
  · rename_i k d ex r
    exact clean_bind (clean_need _) (fun _ _ => clean_bind (clean_keyDescription _ _) (fun key _ =>
      clean_bind (clean_need _) (fun _ _ => clean_bind (clean_excludes _) (fun _ _ =>
        clean_keyValues env ctx hctx isList _ _ r))))
  · rename_i k d c ex r
    exact clean_bind (clean_need _) (fun _ _ => clean_bind (clean_keyDescription _ _) (fun key _ =>
      clean_bind (clean_need _) (fun _ _ => clean_bind (clean_complete env ctx hctx _ c) (fun t _ =>
        clean_bind (clean_excludes _) (fun _ _ => clean_keyValues env ctx hctx isList _ t r)))))
  · exact clean_schema
  termination_by sizeOf defs
end

/-! ## Conditions -/

theorem parseCond_error (isRegex : Str → Bool) (ws : List Str) (hne : ws ≠ []) (e : Err)
    (h : parseCond isRegex ws = .error e) : e = .crazyError := by
  cases ws with
  | nil => exact absurd rfl hne
  | cons cmd args =>
    have h1 : ∀ e, parseOptionIs args = .error e → e = .crazyError := by
      intro e h
      unfold parseOptionIs at h
      simp only at h
      repeat' (split at h)
      all_goals (cases h; try rfl)
    have h2 : ∀ e, parseOptionMatch isRegex args = .error e → e = .crazyError := by
      intro e h
      unfold parseOptionMatch at h
      simp only at h
      repeat' (split at h)
      all_goals (cases h; try rfl)
    have h3 : ∀ e, parseHasOption args = .error e → e = .crazyError := by
      intro e h
      unfold parseHasOption at h
      repeat' (split at h)
      all_goals (cases h; try rfl)
    have h4 : ∀ e, parsePositionalCount args = .error e → e = .crazyError := by
      intro e h
      unfold parsePositionalCount at h
      repeat' (split at h)
      all_goals (cases h; try rfl)
    have h5 : ∀ e, parsePositionalContains args = .error e → e = .crazyError := by
      intro e h
      unfold parsePositionalContains at h
      simp only at h
      repeat' (split at h)
      all_goals (cases h; try rfl)
    unfold parseCond at h
    simp only at h
    repeat' (split at h)
    · exact h1 e h
    · exact h2 e h
    · exact h3 e h
    · exact h4 e h
    · exact h5 e h
    · cases h; rfl

theorem replaceCommands_error (isRegex : Str → Bool) (ts : List (Tok (List Str)))
    (hne : ∀ ws, .cmd ws ∈ ts → ws ≠ []) (e : Err) (h : replaceCommands isRegex ts = .error e) :
    e = .crazyError := by
  induction ts with
  | nil => cases h
  | cons t ts ih =>
    have ih' := ih (fun ws hw => hne ws (by simp [hw]))
    have rest : ∀ (t' : Tok Cond), (do let r ← replaceCommands isRegex ts; Except.ok (t' :: r)) =
        (Except.error e : Except Err (List (Tok Cond))) → e = .crazyError := by
      intro t' h
      cases hr : replaceCommands isRegex ts with
      | ok r => rw [hr] at h; cases h
      | error e' =>
        rw [hr] at h
        cases h
        exact ih' hr
    rw [replaceCommands.eq_def] at h
    simp only at h
    cases t with
    | cmd ws =>
      simp only at h
      cases hc : parseCond isRegex ws with
      | ok c =>
        rw [hc] at h
        exact rest _ h
      | error e' =>
        rw [hc] at h
        have : e' = e := by cases h; rfl
        subst this
        exact parseCond_error isRegex ws (hne ws (by simp)) _ hc
    | bang => exact rest _ h
    | lpar => exact rest _ h
    | rpar => exact rest _ h
    | and => exact rest _ h
    | or => exact rest _ h

/-- The only error of parsing a condition is CrazyError. -/
theorem parseWhen_error (isRegex : Str → Bool) (s : Str) (e : Err) (h : parseWhen isRegex s = .error e) :
    e = .crazyError := by
  unfold parseWhen at h
  split at h
  · cases h; rfl
  · next ts hts => exact replaceCommands_error isRegex ts (C07_commands_nonempty_partial s ts hts) e h

theorem clean_when (env : ValEnv) (s : Str) : Clean (checkWhen env (.str s)) := by
  unfold checkWhen
  simp only
  cases h : parseWhen env.isRegex s with
  | ok _ => exact clean_ok _
  | error e =>
    have := parseWhen_error _ _ _ h
    subst this
    exact clean_schema

/-! ## Options, positionals and definitions -/

theorem clean_completeAttr (env : ValEnv) (ctx : ValCtx) (hctx : GoodCtx ctx) (d : List (Key × Val)) :
    Clean (checkCompleteAttr env ctx d) := by
  unfold checkCompleteAttr
  split
  · exact clean_bind (clean_complete env ctx hctx _ _) (fun _ _ => clean_ok _)
  · exact clean_ok _

theorem clean_whenAttr (env : ValEnv) (d : List (Key × Val))
    (h : ∀ v, getKey d (S "when") = some v → Doc.OrNone Doc.Text v) : Clean (checkWhenAttr env d) := by
  unfold checkWhenAttr
  split
  · next hs =>
    obtain ⟨v, hv, hne⟩ := (isSet_iff _ _).1 hs
    rcases h v hv with rfl | ⟨s, rfl⟩
    · exact absurd rfl hne
    · rw [hv]; exact clean_when env s
  · exact clean_ok _

theorem clean_captureAttr (d : List (Key × Val))
    (h : ∀ v, getKey d (S "capture") = some v → Doc.OrNone Doc.Text v) : Clean (checkCaptureAttr d) := by
  unfold checkCaptureAttr
  split
  · next hs =>
    obtain ⟨v, hv, hne⟩ := (isSet_iff _ _).1 hs
    rcases h v hv with rfl | ⟨s, rfl⟩
    · exact absurd rfl hne
    · rw [hv]; exact clean_need _
  · exact clean_ok _

theorem clean_rules_option : ∀ q ∈ optionRules, ∀ v, checkType v q.types = .ok () → Clean (q.check v) := by
  intro q hq v _
  simp only [optionRules, List.mem_cons, List.not_mem_nil, or_false] at hq
  rcases hq with rfl | rfl | rfl | rfl | rfl | rfl | rfl | rfl | rfl | rfl | rfl | rfl | rfl | rfl <;>
    first | exact clean_ok _ | exact clean_extended _

theorem clean_rules_positional : ∀ q ∈ positionalRules, ∀ v, checkType v q.types = .ok () → Clean (q.check v) := by
  intro q hq v _
  simp only [positionalRules, List.mem_cons, List.not_mem_nil, or_false] at hq
  rcases hq with rfl | rfl | rfl | rfl | rfl | rfl | rfl | rfl <;> exact clean_ok _

theorem clean_rules_definition : ∀ q ∈ definitionRules, ∀ v, checkType v q.types = .ok () → Clean (q.check v) := by
  intro q hq v _
  simp only [definitionRules, List.mem_cons, List.not_mem_nil, or_false] at hq
  rcases hq with rfl | rfl | rfl | rfl | rfl | rfl | rfl | rfl | rfl <;>
    first | exact clean_ok _ | exact clean_extended _

theorem clean_option0 (env : ValEnv) (ctx : ValCtx) (v : Val) : Clean (checkOption0 env ctx v) := by
  unfold checkOption0
  refine clean_bind (clean_dictionary clean_rules_option v) (fun _ hd => ?_)
  split
  · next d =>
    obtain ⟨hent, hreq⟩ := (matches_option.dictionary d).1 hd
    have hstr : Clean (checkOptionStrings d) := by
      unfold checkOptionStrings
      split
      · refine clean_bind (clean_need _) (fun _ _ => clean_each _ (fun v _ => ?_))
        unfold checkOptionString
        split
        · exact clean_need _
        · exact clean_schema
      · next hno =>
        exfalso
        have hk := hreq _ List.mem_cons_self rfl
        rw [hasKey_given] at hk
        cases hg : getKey d (S "option_strings") with
        | none => exact hk hg
        | some v =>
          obtain ⟨l, rfl⟩ : Doc.IsList v := hent.get (by decide) (P := Doc.IsList) (by simp [Doc.optionTable]) hg
          exact hno l hg
    have hwhen : ∀ v, getKey d (S "when") = some v → Doc.OrNone Doc.Text v := fun v hv =>
      hent.get (by decide) (by simp [Doc.optionTable]) hv
    have hcap : ∀ v, getKey d (S "capture") = some v → Doc.OrNone Doc.Text v := fun v hv =>
      hent.get (by decide) (by simp [Doc.optionTable]) hv
    refine clean_bind hstr (fun _ _ => clean_bind (clean_need _) (fun _ _ => clean_bind (clean_need _) (fun _ _ =>
      clean_bind (clean_need _) (fun _ _ => clean_bind (clean_need _) (fun _ _ =>
        clean_bind (clean_listAttr _ _ (fun _ _ _ _ => clean_type _ _)) (fun _ _ =>
          clean_bind (clean_completeAttr _ _ (.inl rfl) _) (fun _ _ =>
            clean_bind (clean_whenAttr _ _ hwhen) (fun _ _ =>
              clean_bind (clean_captureAttr _ hcap) (fun _ _ => ?_)))))))))
    unfold checkArgSep
    split
    · exact clean_need _
    · exact clean_ok _
  · next hno =>
    exfalso
    cases v with
    | dict d => exact hno d rfl
    | _ => cases hd

theorem clean_handle {α : Type} {r : Except Err α} (h : Clean r) : Clean (handle .schemaError r) := by
  cases r with
  | ok a => exact clean_ok _
  | error e =>
    have := h e rfl
    subst this
    exact clean_schema

/-- An option whose option strings are not given as one string. -/
def Doc.ListedStrings (v : Val) : Prop := ∀ d c s, v = .dict d → getKey d (S "option_strings") ≠ some (.str (c :: s))

theorem clean_option (env : ValEnv) (ctx : ValCtx) (v : Val) (hv : Doc.ListedStrings v) :
    Clean (checkOption env ctx v) := by
  unfold checkOption
  have : optionHandler v = .schemaError := by
    unfold optionHandler
    split
    · next d =>
      split
      · next c s hg => exact absurd hg (hv d c s rfl)
      · rfl
    · rfl
  rw [this]
  exact clean_handle (clean_option0 env ctx v)

theorem clean_positional (env : ValEnv) (d : List (Key × Val)) (ps : List Val)
    (hps : getKey d (S "positionals") = some (.list ps)) (hall : ∀ p ∈ ps, Doc.Inspectable p) (v : Val)
    (hv : v ∈ ps) : Clean (checkPositional env { definition := d } v) := by
  obtain ⟨p, rfl, _⟩ := hall v hv
  unfold checkPositional
  refine clean_handle ?_
  unfold checkPositional0
  refine clean_bind (clean_dictionary clean_rules_positional _) (fun _ hd => ?_)
  obtain ⟨hent, hreq⟩ := (matches_positional.dictionary p).1 hd
  have hwhen : ∀ v, getKey p (S "when") = some v → Doc.OrNone Doc.Text v := fun v hv =>
    hent.get (by decide) (by simp [Doc.positionalTable]) hv
  have hcap : ∀ v, getKey p (S "capture") = some v → Doc.OrNone Doc.Text v := fun v hv =>
    hent.get (by decide) (by simp [Doc.positionalTable]) hv
  have hnum : Clean (checkPosNumber p) := by
    unfold checkPosNumber
    have hk := hreq _ List.mem_cons_self rfl
    rw [hasKey_given] at hk
    cases hg : getKey p (S "number") with
    | none => exact absurd hg hk
    | some v =>
      obtain ⟨i, hi⟩ : ∃ i, Doc.Integer v i :=
        hent.get (by decide) (P := fun v => ∃ i, Doc.Integer v i) (by simp [Doc.positionalTable]) hg
      rw [Option.bind_some, (integer_numOf _ _).1 hi]
      exact clean_need _
  exact clean_bind hnum (fun _ _ => clean_bind (clean_completeAttr _ _ (.inr ⟨ps, hps, hall⟩) _) (fun _ _ =>
    clean_bind (clean_whenAttr _ _ hwhen) (fun _ _ => clean_captureAttr _ hcap)))

/-- A definition on which the validator does not fail: see the conditions. -/
structure Doc.Tame (d : List (Key × Val)) : Prop where
  prog : ∀ v, getKey d (S "prog") = some v → Doc.OrNone Doc.Text v
  options : ∀ l, getKey d (S "options") = some (.list l) → ∀ v ∈ l, Doc.ListedStrings v
  positionals : ∀ l, getKey d (S "positionals") = some (.list l) → ∀ v ∈ l, Doc.Inspectable v

theorem clean_definition (env : ValEnv) (d : List (Key × Val)) (h : Doc.Tame d) :
    Clean (checkDefinition env d) := by
  unfold checkDefinition
  refine clean_bind (clean_dictionary clean_rules_definition _) (fun _ hd => ?_)
  obtain ⟨hent, hreq⟩ := (matches_definition.dictionary d).1 hd
  refine clean_bind (clean_need _) (fun _ _ => clean_bind (clean_listAttr _ _ (fun _ _ v _ => clean_word v))
    (fun _ _ => clean_bind ?_ (fun _ _ => clean_bind
      (clean_listAttr _ _ (fun l hl v hv => clean_option _ _ v (h.options l hl v hv)))
      (fun _ _ => clean_listAttr _ _ (fun l hl v hv => clean_positional env d l hl (h.positionals l hl) v hv)))))
  unfold checkWraps
  split
  · next hs =>
    obtain ⟨v, hv, hne⟩ := (isSet_iff _ _).1 hs
    have : Doc.OrNone Doc.Text v := hent.get (by decide) (by simp [Doc.definitionTable]) hv
    rcases this with rfl | ⟨s, rfl⟩
    · exact absurd rfl hne
    · rw [hv]
      exact clean_bind (clean_need _) (fun _ _ => clean_bind (clean_need _) (fun _ _ => clean_need _))
  · exact clean_ok _

/-! ## The tree -/

theorem clean_addAt (d : List (Key × Val)) (path : List Str) (t : DefTree) : Clean (addAt d path t) := by
  induction path generalizing t with
  | nil => rw [addAt]; exact clean_ok _
  | cons n ns ih =>
    obtain ⟨d0, subs⟩ := t
    cases ns with
    | nil =>
      rw [addAt]
      split
      · exact clean_schema
      · exact clean_ok _
    | cons m ms =>
      rw [addAt]
      split
      · exact clean_schema
      · exact clean_bind (ih _) (fun _ _ => clean_ok _)

theorem clean_addDefinition (t : DefTree) (v : Val) (h : ∀ d, v = .dict d → Doc.Tame d) :
    Clean (addDefinition t v) := by
  unfold addDefinition
  split
  · next d =>
    split
    · next hs =>
      obtain ⟨w, hw, hne⟩ := (isSet_iff _ _).1 hs
      rcases (h d rfl).prog w hw with rfl | ⟨s, rfl⟩
      · exact absurd rfl hne
      · simp only [hw]
        exact clean_bind (clean_need _) (fun _ _ => clean_addAt _ _ _)
    · exact clean_schema
  · exact clean_schema

theorem clean_makeTree (vs : List Val) (h : ∀ d, .dict d ∈ vs → Doc.Tame d) (t : DefTree) :
    Clean (makeTree t vs) := by
  induction vs generalizing t with
  | nil => exact clean_ok _
  | cons v vs ih =>
    rw [makeTree]
    exact clean_bind (clean_addDefinition t v (fun d hd => h d (by simp [hd])))
      (fun t' _ => ih (fun d hd => h d (by simp [hd])) t')

theorem clean_repeatableLoop (l : List Val) (r : Option Int) : Clean (repeatableLoop r l) := by
  induction l generalizing r with
  | nil => exact clean_ok _
  | cons p ps ih =>
    rw [repeatableLoop.eq_def]
    simp only
    split
    · split
      · split
        · exact clean_schema
        · exact ih _
      · exact ih _
    · split
      · split
        · exact clean_schema
        · exact ih _
      · exact ih _

theorem clean_repeatable (root : DefTree) (d : List (Key × Val))
    (h : getDefinition root (splitOn ' ' (strKey d (S "prog"))) ≠ none) : Clean (checkRepeatable root d) := by
  unfold checkRepeatable
  split
  · refine clean_bind (clean_repeatableLoop _ _) (fun _ _ => ?_)
    split
    · next hn => exact absurd hn h
    · exact clean_need _
  · exact clean_ok _

theorem clean_nodes (env : ValEnv) (root : DefTree) (l : List DefTree)
    (h : ∀ t ∈ l, Doc.Tame t.definition ∧
      getDefinition root (splitOn ' ' (strKey t.definition (S "prog"))) ≠ none) :
    Clean (checkNodes env root l) := by
  induction l with
  | nil => exact clean_ok _
  | cons t ts ih =>
    rw [checkNodes]
    exact clean_bind (clean_definition env _ (h t (by simp)).1) (fun _ _ =>
      clean_bind (clean_repeatable root _ (h t (by simp)).2) (fun _ _ => ih (fun u hu => h u (by simp [hu]))))

theorem clean_validate (env : ValEnv) (vs : List Val) (h : ∀ d, .dict d ∈ vs → Doc.Tame d) :
    Clean (validate env vs) := by
  unfold validate
  refine clean_bind (clean_makeTree vs h _) (fun root hroot => ?_)
  obtain ⟨qs, hd, ho, hh⟩ := makeTree_holds vs _ root [] holds_empty hroot
  simp only [List.nil_append] at hh
  have hn := (orderedAfter_nodup _ _ ho).1
  have good : ∀ p d, (p, d) ∈ qs → Doc.Tame d ∧
      getDefinition root (splitOn ' ' (strKey d (S "prog"))) ≠ none := by
    intro p d hm
    obtain ⟨s, hs, hp, hmem⟩ := haveDefs_prog hd hm
    refine ⟨h d hmem, ?_⟩
    have hl : lookupDef root p = some d := by rw [hh.defs p (hh.paths _ hm), mem_findDef hn hm]
    have hstr : strKey d (S "prog") = s := by simp [strKey, hs]
    rw [hstr, ← hp]
    intro h0
    simp [lookupDef, h0] at hl
  split
  · next r t hrt =>
    have hgr : getDefinition root [r] = some t := by simp [getDefinition, hrt, subTree]
    have hr : ([r], t.definition) ∈ qs := findDef_mem (by
      rw [← hh.defs [r] (by simp)]; simp [lookupDef, hgr])
    have hnd : (t.subs.map (·.1)).Nodup := hh.names [r] _ (by simp [namesAt, hgr])
    apply clean_nodes
    intro x hx
    simp only [DefTree.getAll, List.mem_cons, List.mem_map] at hx
    rcases hx with rfl | ⟨⟨n, u⟩, hu, rfl⟩
    · exact good _ _ hr
    · refine good [r, n] _ (findDef_mem ?_)
      rw [← hh.defs [r, n] (by simp)]
      simp [lookupDef, getDefinition, hrt, subTree, mem_subTree hnd hu]
  · exact clean_schema

end CC
