import Verif.Lemmas.BashWrapRun
import Verif.Spec.BashParsed
/-!
# C97: a program that wraps another one

`BashWrap.call` reads the generated function and runs it (`Spec/BashWrapping.lean`). The completion of the wrapped command
(`offset`, the function of bash-completion that completes a command line) and the completion of the program itself (`own`)
are any functions.
-/

namespace CC

open BashText BashWrap

/-- What the completion of the wrapped command finds: the line with the wrapped command instead of the program, the cursor as
far behind the command as it was. Everything else is as it was, but for the variables of the wrapper. -/
structure HandedOver (e before : Env) (wraps rest : Str) (words : List Str) (k : Nat) : Prop where
  line : AtLine before wraps rest words k
  others : ∀ x, x ∉ lineNames → x ∉ wrapperNames → before.vars x = e.vars x
  plain : ∀ x ∈ wrapperNames, ∀ y, before.vars x ≠ .ref y

/-- What the completion of the program itself finds: the line as it was typed, and everything else as the wrapped completion
has left it, but for a variable of the wrapper. -/
structure GivenBack (e mid back : Env) : Prop where
  line : ∀ x ∈ lineNames, back.vars x = e.vars x
  others : ∀ x, x ∉ lineNames → x ≠ S "COMPREPLY_OLD" → back.vars x = mid.vars x
  plain : ∀ y, back.vars (S "COMPREPLY_OLD") ≠ .ref y

/-- What is there in the end: what both completions have found, one behind the other; everything else as the program's own
completion has left it, but the variables of the wrapper are what they were before they were made local. -/
structure Joined (e mid last e' : Env) : Prop where
  reply : e'.vars (S "COMPREPLY") = .array ((mid.vars (S "COMPREPLY")).elements ++ (last.vars (S "COMPREPLY")).elements)
  old : e'.vars (S "COMPREPLY_OLD") = mid.vars (S "COMPREPLY_OLD")
  names : ∀ x ∈ wrapperNames, e'.vars x = e.vars x
  others : ∀ x, x ≠ S "COMPREPLY" → x ≠ S "COMPREPLY_OLD" → x ∉ wrapperNames → e'.vars x = last.vars x
  args : e'.args = e.args
  saved : e'.saved = e.saved

/-- Calling the function completes a line as it should for a program that wraps a command: the completion `W` of the wrapped
command runs on the line in which the program is replaced by the wrapped command, with the cursor at the same distance behind
it; then the completion `O` of the program itself runs on the line as it was typed; what both find is offered, first what `W`
has found; and no variable of the wrapper is left behind. `W` and `O` are any functions that leave the variables of the wrapper
alone. -/
def WrapsProperly (text offset own wraps : Str) : Prop :=
  ∀ {cmd rest : Str} {words as : List Str} {k : Nat} {W O : List Str → Env → Option Env} {fs : Funs} {e : Env}, ProperFunction W → ProperFunction O →
    OrdinaryCommand cmd → AtLine e cmd rest words k →
    ∃ before, HandedOver e before wraps rest words k ∧
      ∀ mid, W [S "0"] before = some mid → NoReferences mid → (∀ x ∈ wrapperNames, mid.vars x = before.vars x) →
        ∃ back, GivenBack e mid back ∧
          ∀ last, O (cmd :: as) back = some last → NoReferences last → last.vars (S "COMPREPLY_OLD") = back.vars (S "COMPREPLY_OLD") →
            ∃ e', BashWrap.call ((offset, W) :: (own, O) :: fs) text (cmd :: as) e = some e' ∧ Joined e mid last e'

/-- The environment in which the wrapped completion runs. -/
def beforeEnv (e : Env) (cmd rest wraps : Str) (words : List Str) (k : Nat) (args : List Str) : Env :=
  ((((declare (declare (declare (declare { e with args := args, saved := [] } (S "WRAPS") (.str wraps)) (S "COMP_LINE_OLD") (.str (cmd ++ rest)))
    (S "COMP_POINT_OLD") (.str (decimal (cmd.length + k)))) (S "COMP_WORDS_OLD") (.array (cmd :: words))).put (S "COMP_LINE") (.str (wraps ++ rest))).put
    (S "COMP_WORDS") (.array (wraps :: words))).put (S "COMP_POINT") (.str (decimal (wraps.length + k))))

/-- The environment in which the program's own completion runs. -/
def backEnv (mid : Env) (cmd rest : Str) (words : List Str) (k : Nat) : Env :=
  declare (((mid.put (S "COMP_LINE") (.str (cmd ++ rest))).put (S "COMP_POINT") (.str (decimal (cmd.length + k)))).put (S "COMP_WORDS")
    (.array (cmd :: words))) (S "COMPREPLY_OLD") (.array (mid.vars (S "COMPREPLY")).elements)

/-- Reading a variable of a chain of assignments. -/
macro "lookup" "[" ts:Lean.Parser.Tactic.simpLemma,* "]" : tactic =>
  `(tactic| simp (decide := true) only [put_vars, declare_vars, if_false, if_true, ite_true, ite_false, $ts,*])

theorem run_before {fs : Funs} {e : Env} {cmd rest wraps : Str} {words as : List Str} {k : Nat} (offset own : Str) (hc : OrdinaryCommand cmd)
    (hw : OrdinaryWrapped wraps) (hl : AtLine e cmd rest words k) :
    runAll fs (wrapperStmts offset own wraps) { e with args := cmd :: as, saved := [] } =
      runAll fs ((wrapperStmts offset own wraps).drop 7) (beforeEnv e cmd rest wraps words k (cmd :: as)) := by
  obtain ⟨h1, h2, h3⟩ := hl
  unfold wrapperStmts
  have copied : ∀ (e1 : Env) (x t : Str), e1.vars x = .str t → (Value.copy x).eval e1 = some (.str t) := by
    intro e1 x t h
    rw [eval_copy (by intro y; rw [h]; simp), h]; rfl
  have listed : ∀ (e1 : Env) (x : Str) (l : List Str), e1.vars x = .array l → (Value.arrays [x]).eval e1 = some (.array l) := by
    intro e1 x l h
    rw [eval_array (by intro y; rw [h]; simp), h]; rfl
  rw [run_local _ rfl, run_local _ (copied _ _ (cmd ++ rest) (by lookup [h1])), run_local _ (copied _ _ (decimal (cmd.length + k)) (by lookup [h3])),
    run_local _ (listed _ _ (cmd :: words) (by lookup [h2])), run_set _ (w := .str (wraps ++ rest)), run_first, run_set _ (w := .str (decimal (wraps.length + k)))]
  · have : ∀ e1 : Env, e1.vars (S "COMP_WORDS") = .array (cmd :: words) → wraps :: (e1.vars (S "COMP_WORDS")).elements.drop 1 = wraps :: words := by
      intro e1 h; rw [h]; rfl
    rw [this]
    · rfl
    · lookup [h2]
  · have hp : ∀ e1 : Env, e1.args = cmd :: as → e1.vars (S "COMP_POINT") = .str (decimal (cmd.length + k)) → e1.vars (S "WRAPS") = .str wraps →
        (Value.shift (S "COMP_POINT") (S "WRAPS")).eval e1 = some (.str (decimal (wraps.length + k))) := by
      intro e1 ha hp hv
      show (numberOf e1 (S "COMP_POINT")).bind _ = _
      rw [numberOf_of hp, Option.bind_some, value_plain (by intro y; rw [hv]; simp), hv, ha]
      show (if cmd.length + k + wraps.length < cmd.length then none else some (BashText.Val.str (decimal (cmd.length + k + wraps.length - cmd.length)))) = _
      rw [if_neg (by omega), show cmd.length + k + wraps.length - cmd.length = wraps.length + k from by omega]
    exact hp _ rfl (by lookup [h3]) (by lookup [h3])
  · intro y; lookup [h3]; simp
  · intro y; lookup [h2]; simp
  · have hp : ∀ e1 : Env, e1.args = cmd :: as → e1.vars (S "COMP_LINE") = .str (cmd ++ rest) → e1.vars (S "WRAPS") = .str wraps →
        (Value.subst (S "COMP_LINE") (S "WRAPS")).eval e1 = some (.str (wraps ++ rest)) := by
      intro e1 ha hp hv
      show (value e1 (S "COMP_LINE")).bind _ = _
      rw [value_plain (by intro y; rw [hp]; simp), Option.bind_some, value_plain (by intro y; rw [hv]; simp), hv, hp, ha]
      show (substitute cmd wraps (cmd ++ rest)).map _ = _
      rw [substitute_front hc hw]; rfl
    exact hp _ rfl (by lookup [h1]) (by lookup [h1])
  · intro y; lookup [h1]; simp

theorem wrap_after {fs : Funs} {mid : Env} {cmd rest wraps : Str} {words : List Str} {k : Nat} {offset own : Str}
    (hr : NoReferences mid) (h1 : mid.vars (S "COMP_LINE_OLD") = .str (cmd ++ rest)) (h2 : mid.vars (S "COMP_WORDS_OLD") = .array (cmd :: words))
    (h3 : mid.vars (S "COMP_POINT_OLD") = .str (decimal (cmd.length + k))) :
    runAll fs ((wrapperStmts offset own wraps).drop 8) mid = runAll fs ((wrapperStmts offset own wraps).drop 12) (backEnv mid cmd rest words k) := by
  unfold wrapperStmts
  have copied : ∀ (e1 : Env) (x t : Str), e1.vars x = .str t → (Value.copy x).eval e1 = some (.str t) := by
    intro e1 x t h
    rw [eval_copy (by intro y; rw [h]; simp), h]; rfl
  have listed : ∀ (e1 : Env) (x : Str) (l : List Str), e1.vars x = .array l → (Value.arrays [x]).eval e1 = some (.array l) := by
    intro e1 x l h
    rw [eval_array (by intro y; rw [h]; simp), h]; rfl
  simp only [List.drop_succ_cons, List.drop_zero]
  rw [run_set _ (copied _ _ (cmd ++ rest) h1) (hr _), run_set _ (copied _ _ (decimal (cmd.length + k)) (by lookup [h3])) (by intro y; lookup [hr]; exact hr _ y),
    run_set _ (listed _ _ (cmd :: words) (by lookup [h2])) (by intro y; lookup [h2]; exact hr _ y),
    run_local _ (eval_array (x := S "COMPREPLY") (by intro y; lookup [h1]; exact hr _ y))]
  have : ∀ e1 : Env, e1.vars (S "COMPREPLY") = mid.vars (S "COMPREPLY") → (e1.vars (S "COMPREPLY")).elements = (mid.vars (S "COMPREPLY")).elements := by
    intro e1 h; rw [h]
  rw [this]
  · rfl
  · lookup [h1]

theorem invoke_first (f : Str) (g : List Str → Env → Option Env) (fs : Funs) (args : List Str) (e : Env) : invoke ((f, g) :: fs) f args e = g args e := by
  unfold invoke
  rw [List.find?_cons_of_pos (by simp)]; rfl

theorem invoke_second {f h : Str} (hne : f ≠ h) (g i : List Str → Env → Option Env) (fs : Funs) (args : List Str) (e : Env) :
    invoke ((f, g) :: (h, i) :: fs) h args e = i args e := by
  unfold invoke
  rw [List.find?_cons_of_neg (by simp [hne]), List.find?_cons_of_pos (by simp)]; rfl

/-- **C97.** The generated function completes lines as it should. What is missing: names of programs and wrapped commands with
characters that Bash treats in a special way (`C97_pattern`). -/
theorem C97_wrapper_partial {offset own wrapper wraps : Str} (hoff : FunctionName offset) (hown : FunctionName own) (hwr : isName wrapper = true)
    (hne : offset ≠ own) (hw : OrdinaryWrapped wraps) : WrapsProperly (wrapperFunction offset own wrapper wraps) offset own wraps := by
  intro cmd rest words as k W O fs e hW hO hc hl
  refine ⟨beforeEnv e cmd rest wraps words k (cmd :: as), ⟨⟨?_, ?_, ?_⟩, ?_, ?_⟩, ?_⟩
  · unfold beforeEnv; lookup []
  · unfold beforeEnv; lookup []
  · unfold beforeEnv; lookup []
  · intro x h1 h2
    simp only [lineNames, wrapperNames, List.mem_cons, List.not_mem_nil, or_false, not_or] at h1 h2
    unfold beforeEnv
    simp only [put_vars, declare_vars, h1, h2, if_false]
  · intro x hx y
    simp only [wrapperNames, List.mem_cons, List.not_mem_nil, or_false] at hx
    unfold beforeEnv
    rcases hx with rfl | rfl | rfl | rfl
    all_goals (lookup []; simp)
  · intro mid hmid hrm hkeep
    have m1 : mid.vars (S "COMP_LINE_OLD") = .str (cmd ++ rest) := by
      rw [hkeep _ (by simp [wrapperNames])]; unfold beforeEnv; lookup []
    have m2 : mid.vars (S "COMP_WORDS_OLD") = .array (cmd :: words) := by
      rw [hkeep _ (by simp [wrapperNames])]; unfold beforeEnv; lookup []
    have m3 : mid.vars (S "COMP_POINT_OLD") = .str (decimal (cmd.length + k)) := by
      rw [hkeep _ (by simp [wrapperNames])]; unfold beforeEnv; lookup []
    refine ⟨backEnv mid cmd rest words k, ⟨?_, ?_, ?_⟩, ?_⟩
    · intro x hx
      simp only [lineNames, List.mem_cons, List.not_mem_nil, or_false] at hx
      unfold backEnv
      rcases hx with rfl | rfl | rfl
      · rw [hl.line]; lookup []
      · rw [hl.words]; lookup []
      · rw [hl.point]; lookup []
    · intro x h1 h2
      simp only [lineNames, List.mem_cons, List.not_mem_nil, or_false, not_or] at h1
      unfold backEnv
      simp only [put_vars, declare_vars, h1, h2, if_false]
    · intro y
      unfold backEnv
      lookup []
      simp
    · intro last hlast hrl hold
      have hsaved : last.saved = (S "COMPREPLY_OLD", mid.vars (S "COMPREPLY_OLD")) :: (S "COMP_WORDS_OLD", e.vars (S "COMP_WORDS_OLD")) ::
          (S "COMP_POINT_OLD", e.vars (S "COMP_POINT_OLD")) :: (S "COMP_LINE_OLD", e.vars (S "COMP_LINE_OLD")) :: (S "WRAPS", e.vars (S "WRAPS")) :: [] := by
        rw [(hO _ _ _ hlast).1]
        have : (backEnv mid cmd rest words k).saved = (S "COMPREPLY_OLD", mid.vars (S "COMPREPLY_OLD")) :: mid.saved := by
          show (_, Env.vars _ (S "COMPREPLY_OLD")) :: mid.saved = _
          lookup []
        rw [this, (hW _ _ _ hmid).1]
        congr 1
      have hargs : last.args = cmd :: as := by
        rw [(hO _ _ _ hlast).2]
        show mid.args = _
        rw [(hW _ _ _ hmid).2]; rfl
      have hrun : runAll ((offset, W) :: (own, O) :: fs) (wrapperStmts offset own wraps) { e with args := cmd :: as, saved := [] } =
          some (last.put (S "COMPREPLY") (.array ((mid.vars (S "COMPREPLY")).elements ++ (last.vars (S "COMPREPLY")).elements))) := by
        rw [run_before offset own hc hw hl]
        show (invoke _ offset [S "0"] _).bind (runAll _ ((wrapperStmts offset own wraps).drop 8)) = _
        rw [invoke_first, hmid, Option.bind_some, wrap_after hrm m1 m2 m3]
        show (invoke _ own (backEnv mid cmd rest words k).args (backEnv mid cmd rest words k)).bind (runAll _ ((wrapperStmts offset own wraps).drop 13)) = _
        have : (backEnv mid cmd rest words k).args = cmd :: as := by
          show mid.args = _
          rw [(hW _ _ _ hmid).2]; rfl
        rw [this, invoke_second hne, hlast, Option.bind_some]
        show runAll _ [.set (S "COMPREPLY") (.arrays [S "COMPREPLY_OLD", S "COMPREPLY"])] last = _
        rw [run_set _ (eval_arrays (hrl _) (hrl _)) (hrl _), hold]
        unfold backEnv
        lookup []
        rfl
      refine ⟨{ (restore (last.put (S "COMPREPLY") (.array ((mid.vars (S "COMPREPLY")).elements ++ (last.vars (S "COMPREPLY")).elements))) last.saved) with
        args := e.args, saved := e.saved }, ?_, ?_⟩
      · unfold BashWrap.call
        rw [read_function hoff.1 hoff.2 hown.1 hown.2 hwr hw.1, Option.bind_some]
        show (Option.map _ (runAll _ _ _)).bind _ = _
        rw [hrun]; rfl
      · rw [hsaved]
        refine ⟨?_, ?_, ?_, ?_, rfl, rfl⟩
        · simp only [restore]; lookup []
        · simp only [restore]; lookup []
        · intro x hx
          simp only [wrapperNames, List.mem_cons, List.not_mem_nil, or_false] at hx
          rcases hx with rfl | rfl | rfl | rfl
          all_goals (simp only [restore]; lookup [])
        · intro x h1 h2 h3
          simp only [wrapperNames, List.mem_cons, List.not_mem_nil, or_false, not_or] at h3
          simp only [restore, put_vars, h1, h2, h3, if_false]


/-! ## The names -/

theorem identifier_head {pre : Str} (h : pre.head? = some '_') : (makeIdentifier pre).head? = some '_' := by
  cases pre with
  | nil => simp at h
  | cons c t =>
    simp only [List.head?_cons, Option.some.injEq] at h
    subst h
    have h1 : ∀ u : Str, ∃ v, collapseUnderscores ('_' :: u) = '_' :: v := by
      intro u
      show ∃ v, (match collapseUnderscores u with | '_' :: r => '_' :: r | r => '_' :: r) = '_' :: v
      split
      · exact ⟨_, rfl⟩
      · exact ⟨_, rfl⟩
    unfold makeIdentifier
    simp only [List.map_cons, if_neg (show ¬ '_' = '-' by decide)]
    rw [List.filter_cons_of_pos (by decide)]
    obtain ⟨v, hv⟩ := h1 ((t.map (fun c => if c = '-' then '_' else c)).filter (fun c => isAsciiAlnum c || c == '_'))
    rw [hv]
    rfl

theorem identifier_name {s : Str} (h : (makeIdentifier s).head? = some '_') : FunctionName (makeIdentifier s) := by
  refine ⟨?_, h⟩
  rcases C04_make_identifier_valid s with he | ⟨c, cs, hc, h1, h2⟩
  · rw [he] at h; simp at h
  · rw [hc] at h ⊢
    simp only [List.head?_cons, Option.some.injEq] at h
    subst h
    show (!('_' : Char).isDigit && ('_' :: cs).all nameChar) = true
    rw [Bool.and_eq_true]
    refine ⟨by decide, ?_⟩
    rw [List.all_eq_true]
    intro d hd
    unfold nameChar
    rcases List.mem_cons.mp hd with rfl | hd
    · decide
    · rcases h2 d hd with h | h <;> simp [h]

theorem isName_append {f g : Str} (h : isName f = true) (hg : ∀ c ∈ g, nameChar c = true) : isName (f ++ g) = true := by
  cases f with
  | nil => exact absurd h (by decide)
  | cons c f =>
    have ha := isName_all h
    have hd : (!c.isDigit) = true := by
      have : (!c.isDigit && (c :: f).all nameChar) = true := h
      rw [Bool.and_eq_true] at this
      exact this.1
    show (!c.isDigit && ((c :: f) ++ g).all nameChar) = true
    rw [hd, Bool.true_and, List.all_append, ha, Bool.true_and, List.all_eq_true]
    exact hg

theorem offset_name (ctxt : BashCtxt) : FunctionName (commandOffset ctxt) := by
  unfold commandOffset versioned
  split
  · exact ⟨by decide +kernel, by decide +kernel⟩
  · exact ⟨by decide +kernel, by decide +kernel⟩

/-- **C97.** The code for a program that wraps a command: a line that loads the wrapped command's completion, an empty line, and
a function that completes lines as it should; this function is the one that is registered. `pre` is the prefix of the names of
functions; the name of the program's own function must not be that of the function of bash-completion. -/
theorem C97_program_partial (ctxt : BashCtxt) {pre wraps : Str} {c : Cmd} (hpre : pre.head? = some '_') (hwraps : c.data.wraps = some wraps) (hne : wraps ≠ [])
    (hclash : makeIdentifier pre ≠ commandOffset ctxt) (hw : OrdinaryWrapped wraps) :
    ∃ f load, (bashWrapper ctxt pre c).2 = some (load ++ S "\n\n" ++ f) ∧ (BashWrap.readFunction f).map (·.1) = some (bashWrapper ctxt pre c).1 ∧
      WrapsProperly f (commandOffset ctxt) (makeIdentifier pre) wraps ∧
      ((∀ x ∈ wraps, isSafeChar x = true) → BashWrap.readStmt load = some (.call (completionLoader ctxt) [wraps])) := by
  have hown : FunctionName (makeIdentifier pre) := identifier_name (identifier_head hpre)
  have hwr : isName (makeIdentifier pre ++ S "__wrapper") = true := isName_append hown.1 (by decide +kernel)
  have h0 : bashWrapper ctxt pre c = (makeIdentifier pre ++ S "__wrapper", some (wrapperLoad (completionLoader ctxt) wraps ++ S "\n" ++ S "\n" ++
      wrapperFunction (commandOffset ctxt) (makeIdentifier pre) (makeIdentifier pre ++ S "__wrapper") wraps)) := by
    unfold bashWrapper
    rw [hwraps]
    cases wraps with
    | nil => exact absurd rfl hne
    | cons w ws =>
      have e1 : completionFuncname pre [c.data.prog] [] = makeIdentifier pre := by
        show makeIdentifier pre ++ [] = _
        simp
      have e2 : completionFuncname pre [c.data.prog] (S "__wrapper") = makeIdentifier pre ++ S "__wrapper" := rfl
      simp only [e1, e2]
  refine ⟨wrapperFunction (commandOffset ctxt) (makeIdentifier pre) (makeIdentifier pre ++ S "__wrapper") wraps,
    wrapperLoad (completionLoader ctxt) wraps, ?_, ?_, ?_, ?_⟩
  · rw [h0, List.append_assoc (wrapperLoad _ _)]; rfl
  · rw [h0, read_function (offset_name ctxt).1 (offset_name ctxt).2 hown.1 hown.2 hwr hw.1]; rfl
  · exact C97_wrapper_partial (offset_name ctxt) hown hwr (fun h => hclash h.symm) hw
  · intro hs
    have hload : FunctionName (completionLoader ctxt) := by
      unfold completionLoader versioned
      split
      · exact ⟨by decide +kernel, by decide +kernel⟩
      · exact ⟨by decide +kernel, by decide +kernel⟩
    exact stmt_load hload.1 hload.2 hne hs

/-- A program that wraps nothing has no wrapper: its own function is registered. -/
theorem C97_none (ctxt : BashCtxt) (pre : Str) {c : Cmd} (h : c.data.wraps = none ∨ c.data.wraps = some []) :
    bashWrapper ctxt pre c = (completionFuncname pre [c.data.prog] [], none) := by
  unfold bashWrapper
  rcases h with h | h <;> rw [h]

/-- **C97.** If both completions change only what is offered, so does the wrapper, and it offers what both offer. So the completion
of the wrapped command may itself be a wrapper. -/
theorem C97_transparent {text offset own wraps cmd rest : Str} (ht : WrapsProperly text offset own wraps) {words as : List Str} {k : Nat}
    {w o : List Str → Env → Env} {fs : Funs} {e : Env} (hW : ProperFunction (fun a e => some (w a e))) (hO : ProperFunction (fun a e => some (o a e)))
    (hW1 : ∀ a e x, x ≠ S "COMPREPLY" → (w a e).vars x = e.vars x) (hO1 : ∀ a e x, x ≠ S "COMPREPLY" → (o a e).vars x = e.vars x)
    (hW2 : ∀ a e y, (w a e).vars (S "COMPREPLY") ≠ .ref y) (hO2 : ∀ a e y, (o a e).vars (S "COMPREPLY") ≠ .ref y)
    (hc : OrdinaryCommand cmd) (hl : AtLine e cmd rest words k) (hr : NoReferences e) :
    ∃ e', BashWrap.call ((offset, fun a e => some (w a e)) :: (own, fun a e => some (o a e)) :: fs) text (cmd :: as) e = some e' ∧
      (∀ x, x ≠ S "COMPREPLY" → e'.vars x = e.vars x) ∧ e'.args = e.args ∧ e'.saved = e.saved ∧ ∀ y, e'.vars (S "COMPREPLY") ≠ .ref y := by
  obtain ⟨before, hb, h1⟩ := ht (as := as) (fs := fs) hW hO hc hl
  have hbr : NoReferences before := by
    intro x y
    by_cases h3 : x ∈ wrapperNames
    · exact hb.plain x h3 y
    · by_cases h4 : x ∈ lineNames
      · simp only [lineNames, List.mem_cons, List.not_mem_nil, or_false] at h4
        rcases h4 with rfl | rfl | rfl
        · rw [hb.line.line]; simp
        · rw [hb.line.words]; simp
        · rw [hb.line.point]; simp
      · rw [hb.others x h4 h3]; exact hr x y
  have refs : ∀ (f : List Str → Env → Env) (a : List Str) (e1 : Env), (∀ x, x ≠ S "COMPREPLY" → (f a e1).vars x = e1.vars x) →
      (∀ y, (f a e1).vars (S "COMPREPLY") ≠ .ref y) → NoReferences e1 → NoReferences (f a e1) := by
    intro f a e1 hf hf2 he x y
    by_cases hx : x = S "COMPREPLY"
    · rw [hx]; exact hf2 y
    · rw [hf x hx]; exact he x y
  have hmr : NoReferences (w [S "0"] before) := refs w _ _ (hW1 _ _) (hW2 _ _) hbr
  obtain ⟨back, hk, h2⟩ := h1 _ rfl hmr (fun x hx => hW1 _ _ x (by
    rintro rfl
    exact absurd hx (by decide +kernel)))
  have hkr : NoReferences back := by
    intro x y
    by_cases h3 : x = S "COMPREPLY_OLD"
    · rw [h3]; exact hk.plain y
    · by_cases h4 : x ∈ lineNames
      · rw [hk.line x h4]; exact hr x y
      · rw [hk.others x h4 h3]; exact hmr x y
  obtain ⟨e', he, hj⟩ := h2 _ rfl (refs o _ _ (hO1 _ _) (hO2 _ _) hkr) (hO1 _ _ _ (by decide +kernel))
  refine ⟨e', he, ?_, hj.args, hj.saved, ?_⟩
  · intro x hx
    by_cases h3 : x ∈ wrapperNames
    · exact hj.names x h3
    · by_cases h5 : x = S "COMPREPLY_OLD"
      · rw [h5, hj.old, hW1 _ _ _ (by decide +kernel), hb.others _ (by decide +kernel) (by decide +kernel)]
      · rw [hj.others x hx h5 h3, hO1 _ _ x hx]
        by_cases h4 : x ∈ lineNames
        · exact hk.line x h4
        · rw [hk.others x h4 h5, hW1 _ _ x hx, hb.others x h4 h3]
  · intro y; rw [hj.reply]; simp

/-- Every function written in Bash is proper: it gives back what it has made local, and the arguments. -/
theorem closure_proper (body : Env → Option (Env × Flow)) : ProperFunction (closure body) := by
  intro args e e' h
  unfold closure at h
  cases hb : body { e with args := args, saved := [] } with
  | none => rw [hb] at h; simp at h
  | some r =>
    rw [hb] at h
    obtain ⟨r1, r2⟩ := r
    cases r2 <;> simp at h
    all_goals (subst h; exact ⟨rfl, rfl⟩)

/-- A completion that offers one thing. -/
def offers (t : Str) (_ : List Str) (e : Env) : Env := e.put (S "COMPREPLY") (.array [t])

/-- The line `vi a`, with the cursor behind it. -/
def viEnv : Env where
  vars x := if x = S "COMP_LINE" then .str (S "vi a") else if x = S "COMP_WORDS" then .array [S "vi", S "a"] else if x = S "COMP_POINT" then .str (S "4") else .unset

/-- A case: `vi` wraps `vim`, whose completion offers `x`; its own completion offers `y`. -/
theorem C97_example : ∃ f e', (bashWrapper ⟨S "_vi", S "_vi", false⟩ (S "_vi") (.node { prog := S "vi", wraps := some (S "vim") } none [])).2 =
      some (S "_completion_loader vim" ++ S "\n\n" ++ f) ∧
    BashWrap.call [(S "_command_offset", fun a e => some (offers (S "x") a e)), (S "_vi", fun a e => some (offers (S "y") a e))] f
      [S "vi", S "a", S "vi"] viEnv = some e' ∧ e'.vars (S "COMPREPLY") = .array [S "x", S "y"] := by
  have proper : ∀ t, ProperFunction (fun a e => some (offers t a e)) := by
    intro t args e e' h
    simp only [Option.some.injEq] at h
    subst h
    exact ⟨rfl, rfl⟩
  have hl : AtLine viEnv (S "vi") (S " a") [S "a"] 2 := ⟨by kernel_rfl, by kernel_rfl, by kernel_rfl⟩
  have ht : WrapsProperly (wrapperFunction (S "_command_offset") (S "_vi") (S "_vi__wrapper") (S "vim")) (S "_command_offset") (S "_vi") (S "vim") :=
    C97_wrapper_partial ⟨by decide +kernel, by decide +kernel⟩ ⟨by decide +kernel, by decide +kernel⟩ (by decide +kernel) (by decide +kernel)
      ⟨by decide +kernel, by decide +kernel, by decide +kernel⟩
  have hr : NoReferences viEnv := by
    intro x y
    show (if x = _ then _ else _) ≠ _
    split
    · simp
    · split
      · simp
      · split <;> simp
  have hc : OrdinaryCommand (S "vi") := ⟨by decide +kernel, by decide +kernel, by decide +kernel⟩
  obtain ⟨before, hb, h1⟩ := ht (as := [S "a", S "vi"]) (fs := []) (proper (S "x")) (proper (S "y")) hc hl
  have keep : ∀ (t : Str) (a : List Str) (e : Env) (x : Str), x ≠ S "COMPREPLY" → (offers t a e).vars x = e.vars x := by
    intro t a e x hx
    show (if x = S "COMPREPLY" then _ else _) = _
    rw [if_neg hx]
  have keep2 : ∀ (t : Str) (a : List Str) (e : Env), (∀ x, x ≠ S "COMPREPLY" → ∀ y, e.vars x ≠ .ref y) → NoReferences (offers t a e) := by
    intro t a e he x y
    show (if x = S "COMPREPLY" then BashText.Val.array [t] else e.vars x) ≠ _
    split
    · simp
    · rename_i h; exact he x h y
  have hbr : ∀ x y, before.vars x ≠ .ref y := by
    intro x y
    by_cases h3 : x ∈ wrapperNames
    · exact hb.plain x h3 y
    · by_cases h4 : x ∈ lineNames
      · simp only [lineNames, List.mem_cons, List.not_mem_nil, or_false] at h4
        rcases h4 with rfl | rfl | rfl
        · rw [hb.line.line]; simp
        · rw [hb.line.words]; simp
        · rw [hb.line.point]; simp
      · rw [hb.others x h4 h3]; exact hr x y
  have hm := keep2 (S "x") [S "0"] before (fun x _ => hbr x)
  obtain ⟨back, hk, h2⟩ := h1 _ rfl hm (fun x hx => keep _ _ _ x (by
    rintro rfl
    exact absurd hx (by decide +kernel)))
  obtain ⟨e', he, hj⟩ := h2 _ rfl (keep2 _ _ _ (fun x hx y => by
    by_cases h3 : x = S "COMPREPLY_OLD"
    · rw [h3]; exact hk.plain y
    · by_cases h4 : x ∈ lineNames
      · rw [hk.line x h4]; exact hr x y
      · rw [hk.others x h4 h3]; exact hm x y)) (keep _ _ _ _ (by decide +kernel))
  refine ⟨_, e', ?_, he, ?_⟩
  · kernel_rfl
  · rw [hj.reply]; rfl

theorem replace_never {L : Str → Prop} (r : Str) : ∀ t : Str, (∀ i n, ¬ L ((t.drop i).take n)) → replaceFirst L r t = t
  | [], h => by
    have : longest L [] = none := by
      unfold longest
      rw [List.find?_eq_none]
      intro n _ hd
      exact h 0 n (by simpa using hd)
    unfold replaceFirst
    rw [this]
  | c :: t, h => by
    have : longest L (c :: t) = none := by
      unfold longest
      rw [List.find?_eq_none]
      intro n _ hd
      exact h 0 n (by simpa using hd)
    unfold replaceFirst
    rw [this]
    show c :: replaceFirst L r t = _
    rw [replace_never r t (fun i n => h (i + 1) n)]

/-- The name of the command is used as a pattern: for a command that was typed as `d[1]/p`, the line is not changed, so that the
wrapped completion finds a line that begins with `d[1]/p` and words that begin with the wrapped command. -/
theorem C97_pattern : substitute (S "d[1]/p") (S "w") (S "d[1]/p x") = some (S "d[1]/p x") := by
  unfold substitute
  rw [if_neg (by decide +kernel)]
  have h1 : readGlob caseCtx (S "d[1]/p") = some [[.lit 'd', .cls false [('1', '1')], .lit '/', .lit 'p']] := by kernel_rfl
  rw [h1]
  show some (replaceFirst _ _ _) = _
  rw [replace_never]
  intro i n hL
  simp only [Glob.AltLang, Glob.SeqLang, Glob.Lang, or_false] at hL
  obtain ⟨a, b, hab, ha, c, d, hcd, ⟨x, hx, hr⟩, _⟩ := hL
  subst ha; subst hcd; subst hx
  have g : ∀ j y, (((S "d[1]/p x").drop i).take n)[j]? = some y → (S "d[1]/p x")[i + j]? = some y := by
    intro j y h
    rw [List.getElem?_take] at h
    split at h
    · rwa [List.getElem?_drop] at h
    · simp at h
  have g0 := g 0 'd' (by rw [hab]; rfl)
  have g1 := g 1 x (by rw [hab]; rfl)
  have hi : i < 8 := by
    have := List.getElem?_eq_some_iff.mp g0
    exact this.1
  have key : ∀ i < 8, (S "d[1]/p x")[i + 0]? = some 'd' → (S "d[1]/p x")[i + 1]? = some '[' := by decide +kernel
  rw [key i hi g0] at g1
  simp only [Option.some.injEq] at g1
  subst g1
  obtain ⟨r, hrm, hlo, hhi⟩ := hr
  simp only [List.mem_singleton] at hrm
  subst hrm
  exact absurd hhi (by decide)

/-- The line that loads the completion of the wrapped command does not quote it. -/
theorem C97_load : BashWrap.readStmt (wrapperLoad (S "_completion_loader") (S "git log")) = some (.call (S "_completion_loader") [S "git", S "log"]) := by
  kernel_rfl

end CC
