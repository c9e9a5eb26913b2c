import Verif.Spec.CombineSpec
import Verif.Props.BashComplete
/-!
# C79: combining completers in Bash
-/

namespace CC
open BashCode BashCompleter BashExec

theorem filter_all {α : Type} (l : List α) : l.filter (fun _ => true) = l := by
  induction l with
  | nil => rfl
  | cons x r ih => simp [ih]

theorem filter_none {α : Type} (l : List α) : l.filter (fun _ => false) = [] := by
  induction l with
  | nil => rfl
  | cons x r ih => simp [ih]

theorem exec_append (env : Env) (st : Shell) (a b : List Stmt) :
    exec env st (a ++ b) = exec env (exec env st a) b := by
  induction a generalizing st with
  | nil => rfl
  | cons s r ih => exact ih _

/-- Code that keeps some of the earlier results and adds its own, and changes nothing else that matters. -/
def OrdinaryCode (env : Env) (a : List Stmt) : Prop :=
  ∀ v : View, ∃ (keep : Str → Bool) (adds : List Str), ∀ st : Shell, st.view = v → st.skip = false →
    (exec env st a).view = v ∧ (exec env st a).skip = false ∧ (exec env st a).old = st.old ∧
      (exec env st a).reply = st.reply.filter keep ++ adds

theorem OrdinaryCode.nil (env : Env) : OrdinaryCode env [] := fun v =>
  ⟨fun _ => true, [], fun st hv hs => ⟨hv, hs, rfl, by simp [exec, filter_all]⟩⟩

theorem OrdinaryCode.append {env : Env} {a b : List Stmt} (ha : OrdinaryCode env a) (hb : OrdinaryCode env b) :
    OrdinaryCode env (a ++ b) := by
  intro v
  obtain ⟨k1, a1, h1⟩ := ha v
  obtain ⟨k2, a2, h2⟩ := hb v
  refine ⟨fun x => k1 x && k2 x, a1.filter k2 ++ a2, fun st hv hs => ?_⟩
  obtain ⟨e1, e2, e3, e4⟩ := h1 st hv hs
  obtain ⟨f1, f2, f3, f4⟩ := h2 _ e1 e2
  rw [exec_append]
  refine ⟨f1, f2, f3.trans e3, ?_⟩
  rw [f4, e4, List.filter_append, List.filter_filter, List.append_assoc]
  congr 2
  funext x; rw [Bool.and_comm]

theorem OrdinaryCode.call {env : Env} {ws : List Str} (h : Ordinary env ws) : OrdinaryCode env [.call ws] := by
  obtain ⟨k, a, h⟩ := h
  intro v
  refine ⟨k v, a v, fun st hv hs => ?_⟩
  simp [exec, exec1, hs, perform, hv, h]

theorem OrdinaryCode.compgen (env : Env) (append : Bool) (ws : List Str) : OrdinaryCode env [.compgen append ws] := by
  intro v
  refine ⟨fun _ => append, env.gen ws v, fun st hv hs => ?_⟩
  cases append <;> simp [exec, exec1, hs, perform, hv, filter_all, filter_none]

/-- Something is done in a directory. -/
theorem OrdinaryCode.inDir {env : Env} {ws : List Str} (h : Ordinary env ws) (d : Option Str) :
    OrdinaryCode env (inDir d [.call ws]) := by
  cases d with
  | none => exact OrdinaryCode.call h
  | some d =>
    obtain ⟨k, a, h⟩ := h
    intro v
    simp only [BashCompleter.inDir, List.cons_append, List.nil_append]
    cases he : env.enter v.cwd d with
    | none =>
      refine ⟨fun _ => true, [], fun st hv hs => ?_⟩
      simp [exec, exec1, hs, perform, hv, he, filter_all]
    | some c =>
      refine ⟨k { v with cwd := c }, a { v with cwd := c }, fun st hv hs => ?_⟩
      simp [exec, exec1, hs, perform, hv, he, h]

/-- Keys are collected, and a command is called with them. -/
theorem exec_pushes {s : Setting} {isList : Bool} {cond : Option Str} (env : Env) : ∀ {ks : KeyDefList} {pushes : List Stmt},
    DoesKeys s isList cond ks pushes → ∀ (v : View) (arr : List Str) (f : Str), (∀ g, cond = some g → f = g) →
    ∃ arr', ∀ st : Shell, st.view = v → st.skip = false → st.array = arr → (∀ g, cond = some g → st.cond = g) →
      exec env st pushes = { st with array := arr' }
  | .nil, pushes, h, v, arr, f, hf => by
    simp only [DoesKeys] at h; subst h
    exact ⟨arr, fun st _ _ h3 _ => by subst h3; rfl⟩
  | .bare k d ex r, pushes, h, v, arr, f, hf => by
    simp only [DoesKeys] at h
    obtain ⟨b, hb, rfl⟩ := h
    exact push_step env hb (exec_pushes env hb) v arr f hf _ _
  | .cons k d ex c r, pushes, h, v, arr, f, hf => by
    simp only [DoesKeys] at h
    obtain ⟨g, b, _, hb, rfl⟩ := h
    exact push_step env hb (exec_pushes env hb) v arr f hf _ _
where
  push_step (env : Env) {s : Setting} {isList : Bool} {cond : Option Str} {r : KeyDefList} {b : List Stmt}
      (hb : DoesKeys s isList cond r b)
      (ih : ∀ (v : View) (arr : List Str) (f : Str), (∀ g, cond = some g → f = g) →
        ∃ arr', ∀ st : Shell, st.view = v → st.skip = false → st.array = arr → (∀ g, cond = some g → st.cond = g) →
          exec env st b = { st with array := arr' })
      (v : View) (arr : List Str) (f : Str) (hf : ∀ g, cond = some g → f = g) (k : Str) (ws : List Str) :
      ∃ arr', ∀ st : Shell, st.view = v → st.skip = false → st.array = arr → (∀ g, cond = some g → st.cond = g) →
        exec env st (.push (keyCondition isList cond k) ws :: b) = { st with array := arr' } := by
    cases cond with
    | none =>
      obtain ⟨arr', h⟩ := ih v (arr ++ ws) f hf
      refine ⟨arr', fun st h1 h2 h3 h4 => ?_⟩
      simp only [exec, keyCondition, Option.map_none, exec1, h2, perform, Bool.false_eq_true, if_false]
      rw [h _ (by simpa using h1) (by simpa using h2) (by simp [h3]) (by simp)]
    | some g =>
      have hfg := hf g rfl
      subst hfg
      simp only [keyCondition, Option.map_some]
      generalize (if isList = true then keyName k else k) = key
      cases ha : env.accepts f key v with
      | true =>
        obtain ⟨arr', h⟩ := ih v (arr ++ ws) f hf
        refine ⟨arr', fun st h1 h2 h3 h4 => ?_⟩
        have hc := h4 f rfl
        simp only [exec, exec1, h2, perform, Bool.false_eq_true, if_false, hc, h1, ha, if_true]
        rw [h _ (by simpa using h1) (by simpa using h2) (by simp [h3]) (by simpa using h4)]
      | false =>
        obtain ⟨arr', h⟩ := ih v arr f hf
        refine ⟨arr', fun st h1 h2 h3 h4 => ?_⟩
        have hc := h4 f rfl
        simp only [exec, exec1, h2, perform, Bool.false_eq_true, if_false, hc, h1, ha]
        have := h st h1 h2 h3 h4
        rw [h1, h2, hc] at this
        simpa using this

theorem OrdinaryCode.keys {env : Env} {s : Setting} {isList : Bool} {cond : Option Str} {ks : KeyDefList} {pushes : List Stmt}
    (h : DoesKeys s isList cond ks pushes) (ws : List Str) (ho : ∀ more, Ordinary env (ws ++ more)) :
    OrdinaryCode env (keyStart cond ++ pushes ++ [.callWith ws "a".toList]) := by
  intro v
  obtain ⟨arr', hx⟩ := exec_pushes env h v [] (cond.getD []) (by intro g hg; simp [hg])
  obtain ⟨k, a, hk⟩ := ho arr'
  refine ⟨k v, a v, fun st hv hs => ?_⟩
  rw [exec_append, exec_append]
  have h1 : ∃ c, exec env st (keyStart cond) = { st with array := [], cond := c } ∧ ∀ g, cond = some g → c = g := by
    cases cond with
    | none => exact ⟨st.cond, by simp [keyStart, exec, exec1, hs, perform], by simp⟩
    | some g => exact ⟨g, by simp [keyStart, exec, exec1, hs, perform], by simp⟩
  obtain ⟨c, h1, h2⟩ := h1
  rw [h1, hx { st with array := [], cond := c } hv hs rfl h2]
  have hne : "a".toList ≠ "COMPREPLY".toList := by decide
  simp only [exec, exec1, hs, perform, Bool.false_eq_true, if_false, if_neg hne, hk, hv]
  simp

/-- Code alone, and the same after earlier results. -/
def Sem (env : Env) (a b : List Stmt) : Prop :=
  ∀ st : Shell, st.skip = false →
    ((exec env st a).view = st.view ∧ (exec env st a).skip = false ∧
      (st.reply = [] → ∀ x, x ∈ (exec env st a).reply ↔ x ∈ offers env a st.view)) ∧
    ((exec env st b).view = st.view ∧ (exec env st b).skip = false ∧
      ∀ x, x ∈ (exec env st b).reply ↔ x ∈ st.reply ∨ x ∈ offers env a st.view)

theorem Sem.nil (env : Env) : Sem env [] [] := by
  intro st hs
  refine ⟨⟨rfl, hs, fun h x => ?_⟩, rfl, hs, fun x => ?_⟩
  · simp [exec, h, offers]
  · simp [exec, offers]

theorem offers_ordinary {env : Env} {a : List Stmt} {v : View} {k : Str → Bool} {l : List Str}
    (h : ∀ st : Shell, st.view = v → st.skip = false →
      (exec env st a).view = v ∧ (exec env st a).skip = false ∧ (exec env st a).old = st.old ∧
        (exec env st a).reply = st.reply.filter k ++ l) : offers env a v = l := by
  have := (h { view := v } rfl rfl).2.2.2
  simpa [offers] using this

/-- Earlier results are saved and joined. -/
theorem Sem.wrap {env : Env} {a : List Stmt} (h : OrdinaryCode env a) : Sem env a (appending true a) := by
  intro st hs
  obtain ⟨k, l, hk⟩ := h st.view
  have ho := offers_ordinary hk
  obtain ⟨e1, e2, e3, e4⟩ := hk st rfl hs
  refine ⟨⟨e1, e2, fun hr x => ?_⟩, ?_⟩
  · rw [e4, hr, ho]; simp
  · have hw : exec env st (appending true a) = exec1 env (exec env { st with old := st.reply } a) .joinReply := by
      have h1 : exec1 env st .saveReply = { st with old := st.reply } := by
        unfold exec1; rw [if_neg (by simp [hs])]; rfl
      show exec env (exec1 env st .saveReply) (a ++ [.joinReply]) = _
      rw [h1, exec_append]; rfl
    obtain ⟨f1, f2, f3, f4⟩ := hk { st with old := st.reply } rfl hs
    rw [hw]
    simp only [exec1, f2, Bool.false_eq_true, if_false, perform]
    refine ⟨f1, trivial, fun x => ?_⟩
    rw [f3, f4, ho]
    simp only [List.mem_append, List.mem_filter]
    grind

theorem Sem.compgen (env : Env) (ws : List Str) : Sem env [.compgen false ws] [.compgen true ws] := by
  intro st hs
  simp [exec, exec1, hs, perform, offers]

theorem Sem.values {env : Env} {f : Str} {q : Str → Str}
    (h : ∀ args v r, env.call (f :: args) v r = bashValues q v.cur r args) (ws : List Str) :
    Sem env [.call (f :: "--".toList :: ws)] [.call (f :: "-a".toList :: "--".toList :: ws)] := by
  intro st hs
  have h1 : ¬ "--".toList = S "-a" := by decide
  have h2 : "-a".toList = S "-a" := rfl
  have h3 : "--".toList = S "--" := rfl
  simp only [exec, exec1, hs, perform, offers, h, bashValues, Bool.false_eq_true, if_false, List.head?_cons, Option.some.injEq,
    if_neg h1, if_pos h2, if_pos h3, List.tail_cons, List.nil_append, List.mem_append]
  simp

/-- A list whose items replace the earlier results. -/
theorem OrdinaryCode.list {env : Env} {inner : List Stmt} {sep : Str} {vl : List Str}
    (hi : ∀ v, ∃ l, ∀ st : Shell, st.view = v → st.skip = false → exec env st inner = { st with reply := l }) :
    OrdinaryCode env ([.saveCur, .cutCur sep] ++ inner ++ [.restoreCur, .callWith vl "COMPREPLY".toList]) := by
  intro v
  obtain ⟨l, hl⟩ := hi { v with cur := afterLast sep v.cur }
  refine ⟨fun _ => false, env.call (vl ++ l) v l, fun st hv hs => ?_⟩
  rw [exec_append, exec_append]
  simp only [exec, exec1, hs, perform, Bool.false_eq_true, if_false]
  rw [hl _ (by simp [hv]) (by simpa using hs)]
  simp [hs, hv, filter_none]

theorem Sem.append {env : Env} {a1 b1 b2 : List Stmt} {a2 : View → List Str} (h1 : Sem env a1 b1)
    (h2 : ∀ st : Shell, st.skip = false → (exec env st b2).view = st.view ∧ (exec env st b2).skip = false ∧
      ∀ x, x ∈ (exec env st b2).reply ↔ x ∈ st.reply ∨ x ∈ a2 st.view) :
    Sem env (a1 ++ b2) (b1 ++ b2) ∧ ∀ v x, x ∈ offers env (a1 ++ b2) v ↔ x ∈ offers env a1 v ∨ x ∈ a2 v := by
  have ho : ∀ v x, x ∈ offers env (a1 ++ b2) v ↔ x ∈ offers env a1 v ∨ x ∈ a2 v := by
    intro v x
    obtain ⟨⟨e1, e2, e3⟩, _⟩ := h1 { view := v } rfl
    obtain ⟨f1, f2, f3⟩ := h2 _ e2
    show x ∈ (exec env { view := v } (a1 ++ b2)).reply ↔ _
    rw [exec_append, f3, e3 rfl, e1]
  refine ⟨fun st hs => ?_, ho⟩
  obtain ⟨⟨e1, e2, e3⟩, g1, g2, g3⟩ := h1 st hs
  obtain ⟨f1, f2, f3⟩ := h2 _ e2
  obtain ⟨k1, k2, k3⟩ := h2 _ g2
  rw [exec_append, exec_append]
  refine ⟨⟨f1.trans e1, f2, fun hr x => ?_⟩, k1.trans g1, k2, fun x => ?_⟩
  · rw [f3, e3 hr, e1, ho]
  · rw [k3, g3, g1, ho, or_assoc]

/-! ## The completers -/

/-- A command whose name does not end like `prefix`. -/
theorem sound_named {env : Env} {pre : Str} (h : Sound env pre) (w : Str) (ws : List Str) (hw : w.getLast? ≠ some 'x') :
    Ordinary env (w :: ws) := by
  refine h.ordinary _ ?_
  intro he
  simp at he
  apply hw
  rw [he]
  simp

theorem sound_helper {env : Env} {pre : Str} (h : Sound env pre) (s : Setting) (name : String) (ws : List Str)
    (hw : name.toList ≠ [] ∧ name.toList.getLast? ≠ some 'x') : Ordinary env (helper s name :: ws) := by
  refine sound_named h _ ws ?_
  simp only [BashCompleter.helper, List.getLast?_append]
  cases hx : name.toList.getLast? with
  | none => exact absurd (List.getLast?_eq_none_iff.mp hx) hw.1
  | some c => rw [hx] at hw; simpa using hw.2

theorem sound_filedir {env : Env} {pre : Str} (h : Sound env pre) (s : Setting) (ws : List Str) :
    Ordinary env (filedir s :: ws) := by
  refine sound_named h _ ws ?_
  unfold BashCompleter.filedir
  cases s.new <;> decide

theorem OrdinaryCode.file {env : Env} {pre : Str} (h : Sound env pre) (s : Setting) (o : FileOpts) :
    OrdinaryCode env (fileStmts s o) := by
  unfold fileStmts
  refine (OrdinaryCode.inDir ?_ _).append ?_
  · exact sound_filedir h s _
  · split
    · exact OrdinaryCode.nil env
    · exact OrdinaryCode.call (sound_helper h s _ _ (by decide))

theorem OrdinaryCode.ip {env : Env} {pre : Str} (h : Sound env pre) (s : Setting) (t : Str) :
    ∃ a, OrdinaryCode env a ∧ ∀ append, ipStmts s append t = appending append a := by
  have hf : ∀ ws, Ordinary env ((if s.new then "_comp_compgen_ip_addresses" else "_ip_addresses").toList :: ws) := by
    intro ws
    refine sound_named h _ ws ?_
    cases s.new <;> decide
  unfold ipStmts
  simp only
  generalize (if s.new then "_comp_compgen_ip_addresses" else "_ip_addresses").toList = f at hf ⊢
  have h2 : ∀ ws l, OrdinaryCode env
      [.call (f :: ws), .compgen true l] :=
    fun ws l => (OrdinaryCode.call (hf ws)).append (OrdinaryCode.compgen env true l)
  repeat' split
  all_goals first
    | exact ⟨_, OrdinaryCode.call (hf _), fun _ => rfl⟩
    | exact ⟨_, h2 _ _, fun _ => rfl⟩

/-- What the code of a completer that replaces the earlier results does. -/
theorem overwrites_code {env : Env} (ctxt : BashCtxt) (hp : ∀ c ∈ ctxt.pre, isSafeChar c = true) (F : Dyn) (henv : Sound env ctxt.pre)
    (c : Comp) (ho : Overwrites c) (hv : Proper c) (hw : Works ctxt.v212 c) (dyn : Dyn) (r : BashObj × Dyn)
    (h : bashCompleter ctxt c dyn = .ok r) (hF : ∀ e ∈ r.2, e ∈ F) (inner : List Stmt)
    (hr : ReadsAs (r.1.getCode (realName ctxt.pre (S "values")) false) inner)  :
    ∀ v, ∃ l, ∀ st : Shell, st.view = v → st.skip = false → exec env st inner = { st with reply := l } := by
  obtain ⟨ss, h1, h2⟩ := bash_does ctxt hp F c hv hw dyn r h hF false
  have := readsAs_unique hr h1
  subst this
  have hg : ∀ args, inner = [.compgen false args] →
      ∀ v, ∃ l, ∀ st : Shell, st.view = v → st.skip = false → exec env st inner = { st with reply := l } := by
    intro args he v
    subst he
    refine ⟨env.gen args v, fun st h3 h4 => ?_⟩
    subst h3
    simp [exec, exec1, h4, perform]
  obtain ⟨q, hq⟩ := henv.values
  cases c with
  | choices c =>
    simp only [Does] at h2
    rcases h2 with ⟨list, h2, _⟩ | h2
    · exact hg _ h2
    · intro v
      refine ⟨bashValues q v.cur [] ("--".toList :: c.words.map Choice.text), fun st h3 h4 => ?_⟩
      subst h3
      rw [h2]
      have e : helper ⟨ctxt.pre, ctxt.v212, F⟩ "values" = ctxt.pre ++ "__values".toList := by
        simp [helper]
      simp only [e, Bool.false_eq_true, if_false, List.append_nil, List.cons_append, List.nil_append, exec, exec1, h4,
        perform, hq]
      have h1 : ¬ "--".toList = S "-a" := by decide
      simp only [bashValues, List.head?_cons, Option.some.injEq, if_neg h1, Bool.false_eq_true, if_false]
  | range a b s => simp only [Does] at h2; exact hg _ h2
  | command p a b =>
    cases p with
    | some p => simp [Overwrites] at ho
    | none => cases a with
      | some a => simp [Overwrites] at ho
      | none => cases b with
        | some b => simp [Overwrites] at ho
        | none => simp only [Does, pathStmts, List.nil_append] at h2; exact hg _ h2
  | void n =>
    simp only [Overwrites, List.mem_map] at ho
    obtain ⟨e, he, rfl⟩ := ho
    have h4 := void_actions ctxt e he
    simp only [bashCompleter, h4] at h
    cases h
    exact hg _ (readsAs_unique hr (reads_compgen_obj _ _ _ _ _ rfl))
  | _ => simp [Overwrites] at ho

/-- Both codes of a completion object: alone, and after earlier results. -/
def Both (env : Env) (v : Str) (o : BashObj) : Prop :=
  ∃ a b, ReadsAs (o.getCode v false) a ∧ ReadsAs (o.getCode v true) b ∧ Sem env a b

theorem Both.wrap {env : Env} {v : Str} {o : BashObj} {a : List Stmt} (ha : OrdinaryCode env a)
    (h : ∀ append, ReadsAs (o.getCode v append) (appending append a)) : Both env v o :=
  ⟨a, _, by simpa [appending] using h false, h true, Sem.wrap ha⟩

theorem Both.nothing (env : Env) (v : Str) : Both env v (.code []) :=
  ⟨[], [], ReadsAs.nil, ReadsAs.nil, Sem.nil env⟩

theorem Both.compgen {env : Env} {v : Str} {o : BashObj} {ws : List Str}
    (h : ∀ append, ReadsAs (o.getCode v append) [.compgen append ws]) : Both env v o :=
  ⟨_, _, h false, h true, Sem.compgen env ws⟩

theorem Both.func {env : Env} {v f : Str} {args : List Str} (hf : f ≠ "local".toList) (ho : Ordinary env (f :: args)) :
    Both env v (.func (f :: args)) :=
  Both.wrap (OrdinaryCode.call ho) (fun append => reads_func v append f args hf)

theorem Both.choices {env : Env} {pre : Str} (hp : ∀ c ∈ pre, isSafeChar c = true) (henv : Sound env pre) (c : Choices) :
    Both env (realName pre (S "values")) (.words c) := by
  obtain ⟨q, hq⟩ := henv.values
  have hr : ∀ append, ReadsAs ((BashObj.words c).getCode (realName pre (S "values")) append)
      (if ((c.words.map Choice.text).filter needsQuote).any (fun v => !v.isEmpty) then
        [.call ([realName pre (S "values")] ++ (if append then ["-a".toList] else []) ++ ["--".toList] ++
          c.words.map Choice.text)]
      else [.compgen append ["-W".toList, joinWith [' '] (c.words.map Choice.text)]]) := by
    exact fun append => reads_choices_code pre hp c append
  by_cases hc : ((c.words.map Choice.text).filter needsQuote).any (fun v => !v.isEmpty) = true
  · simp only [hc, if_true] at hr
    refine ⟨_, _, hr false, hr true, ?_⟩
    have hn : realName pre (S "values") = pre ++ "__values".toList := by simp [realName, S]
    rw [hn]
    exact Sem.values hq _
  · simp only [hc] at hr
    exact Both.compgen hr

/-- What the parts offer, each alone. -/
def partsOffer (env : Env) (valuesFunc : Str) (os : List BashObj) (v : View) : List Str :=
  os.flatMap (fun o => ((BashCode.read (o.getCode valuesFunc false)).map (fun a => offers env a v)).getD [])

theorem partsOffer_cons {env : Env} {f : Str} {o : BashObj} {os : List BashObj} {a : List Stmt}
    (h : ReadsAs (o.getCode f false) a) (v : View) : partsOffer env f (o :: os) v = offers env a v ++ partsOffer env f os v := by
  simp [partsOffer, h.read]

theorem reads_codes_cons {f : Str} {o : BashObj} {os : List BashObj} {append : Bool} {a b : List Stmt}
    (h1 : ReadsAs (o.getCode f append) a) (h2 : ReadsAs (joinWith ['\n'] (BashObj.codes f os true)) b) :
    ReadsAs (joinWith ['\n'] (BashObj.codes f (o :: os) append)) (a ++ b) := by
  simp only [codes_cons]
  cases hr : BashObj.codes f os true with
  | nil =>
    rw [hr] at h2
    have : b = [] := readsAs_unique h2 ReadsAs.nil
    subst this
    simpa [joinWith] using h1
  | cons x xs =>
    rw [hr] at h2
    simpa [joinWith] using h1.append h2

theorem both_later {env : Env} {f : Str} : ∀ {os : List BashObj}, (∀ o ∈ os, Both env f o) →
    ∃ b, ReadsAs (joinWith ['\n'] (BashObj.codes f os true)) b ∧
      ∀ st : Shell, st.skip = false → (exec env st b).view = st.view ∧ (exec env st b).skip = false ∧
        ∀ x, x ∈ (exec env st b).reply ↔ x ∈ st.reply ∨ x ∈ partsOffer env f os st.view
  | [], _ => ⟨[], ReadsAs.nil, fun st hs => ⟨rfl, hs, by simp [exec, partsOffer]⟩⟩
  | o :: os, h => by
    obtain ⟨a, b, h1, h2, h3⟩ := h o (by simp)
    obtain ⟨b2, h4, h5⟩ := both_later (os := os) (fun o ho => h o (by simp [ho]))
    refine ⟨b ++ b2, reads_codes_cons h2 h4, fun st hs => ?_⟩
    obtain ⟨_, g1, g2, g3⟩ := h3 st hs
    obtain ⟨k1, k2, k3⟩ := h5 _ g2
    rw [exec_append]
    refine ⟨k1.trans g1, k2, fun x => ?_⟩
    rw [k3, g3, g1, partsOffer_cons h1, List.mem_append, or_assoc]

theorem both_combine {env : Env} {f : Str} {os : List BashObj} (h : ∀ o ∈ os, Both env f o) :
    Both env f (.combine os) ∧ ∃ a, ReadsAs ((BashObj.combine os).getCode f false) a ∧
      ∀ v x, x ∈ offers env a v ↔ x ∈ partsOffer env f os v := by
  simp only [Both, BashObj.getCode]
  cases os with
  | nil =>
    exact ⟨⟨[], [], ReadsAs.nil, ReadsAs.nil, Sem.nil env⟩, [], ReadsAs.nil, by simp [offers, partsOffer, exec]⟩
  | cons o os =>
    obtain ⟨a, b, h1, h2, h3⟩ := h o (by simp)
    obtain ⟨b2, h4, h5⟩ := both_later (os := os) (fun o ho => h o (by simp [ho]))
    obtain ⟨k1, k2⟩ := h3.append h5
    refine ⟨⟨a ++ b2, b ++ b2, reads_codes_cons h1 h4, reads_codes_cons h2 h4, k1⟩, a ++ b2, reads_codes_cons h1 h4, ?_⟩
    intro v x
    rw [k2, partsOffer_cons h1, List.mem_append]

theorem both_void {env : Env} (ctxt : BashCtxt) (henv : Sound env ctxt.pre) (v n : Str) (hn : n ∈ voidNames)
    (hw : ctxt.v212 = true → n ≠ "login_shell".toList ∧ n ≠ "filesystem_type".toList) (o : BashObj)
    (h : bashVoid ctxt n = .ok o) : Both env v o := by
  rcases void_known n hn with hk | hk | hk | hk
  · obtain ⟨e, he, rfl⟩ := List.mem_map.mp hk
    rw [void_actions ctxt e he] at h
    cases h
    exact Both.compgen (fun append => reads_compgen_obj _ _ _ _ _ rfl)
  · obtain ⟨e, he, rfl⟩ := List.mem_map.mp hk
    rw [void_helpers ctxt ⟨ctxt.pre, ctxt.v212, []⟩ rfl e he] at h
    cases h
    have hf : ∀ e ∈ helpers, ∃ w ws, e.2 = w :: ws ∧ w.toList ≠ [] ∧ w.toList.getLast? ≠ some 'x' := by
      simp only [helpers, List.forall_mem_cons, List.not_mem_nil, false_implies, implies_true, and_true]
      refine ⟨?_, ?_, ?_, ?_, ?_, ?_, ?_⟩ <;> exact ⟨_, _, rfl, by decide, by decide⟩
    obtain ⟨w, ws, hws, hx⟩ := hf e he
    rw [hws]
    exact Both.func (realName_not_local _ _) (sound_helper henv _ _ _ hx)
  · obtain ⟨e, he, rfl⟩ := List.mem_map.mp hk
    rw [void_library ctxt e he hw] at h
    cases h
    have hf : ∀ e ∈ library, ∀ b : Bool, ∃ w ws, (if b then e.2.1 else e.2.2).map String.toList = w :: ws ∧
        w ≠ "local".toList ∧ w.getLast? ≠ some 'x' := by
      simp only [library, List.forall_mem_cons, List.not_mem_nil, false_implies, implies_true, and_true]
      refine ⟨?_, ?_, ?_, ?_, ?_, ?_, ?_, ?_⟩ <;> intro b <;> cases b <;> exact ⟨_, _, rfl, by decide, by decide⟩
    obtain ⟨w, ws, hws, hl, hx⟩ := hf e he ctxt.v212
    rw [hws]
    exact Both.func hl (sound_named henv _ _ hx)
  · subst hk
    rw [show bashVoid ctxt "date_format".toList = .ok (.code []) from rfl] at h
    cases h
    exact Both.nothing env v

theorem both_number {env : Env} (ctxt : BashCtxt) (henv : Sound env ctxt.pre) (v : Str) (o : NumOpts) (obj : BashObj)
    (h : bashNumber ctxt o = .ok obj) : Both env v obj := by
  obtain ⟨obj', h1, h2⟩ := reads_number ctxt [] v o
  rw [h] at h1; cases h1
  unfold numberStmts at h2
  split at h2
  · exact ⟨[], [], h2 false, h2 true, Sem.nil env⟩
  · exact Both.wrap (OrdinaryCode.call (sound_helper henv _ _ _ (by decide))) h2

theorem both_helper1 {env : Env} (ctxt : BashCtxt) (henv : Sound env ctxt.pre) (v : Str) (name : String) (arg : Str)
    (hn : name.toList ≠ [] ∧ name.toList.getLast? ≠ some 'x') (obj : BashObj)
    (hl : ∃ l, assocGet bashRepo (S name) = some l)
    (h : bashHelper1 ctxt name arg = .ok obj) : Both env v obj := by
  obtain ⟨l, hl⟩ := hl
  have h1 : useHelper bashRepo ctxt.pre (S name) = .ok (realName ctxt.pre (S name)) := by
    simp only [useHelper, hl]
  unfold bashHelper1 at h
  rw [h1] at h
  cases h
  exact Both.func (realName_not_local _ _) (sound_helper henv ⟨ctxt.pre, true, []⟩ name [arg] hn)

mutual
theorem both_comp {env : Env} (ctxt : BashCtxt) (hp : ∀ c ∈ ctxt.pre, isSafeChar c = true) (henv : Sound env ctxt.pre) :
    ∀ (c : Comp) (_ : Proper c) (_ : Works ctxt.v212 c) (_ : Mixes c) (dyn : Dyn) (r : BashObj × Dyn)
      (_ : bashCompleter ctxt c dyn = .ok r), Both env (realName ctxt.pre (S "values")) r.1
  | .combine cs, hv, hw, hm, dyn, r, h => by
    simp only [bashCompleter] at h
    obtain ⟨a, ha, h⟩ := ok_bind h
    simp at h; subst h
    exact (both_combine (both_comps ctxt hp henv cs (by simpa [Proper] using hv) (by simpa [Works] using hw)
      (by simpa [Mixes] using hm) dyn a ha)).1
  | .list c o, hv, hw, hm, dyn, r, h => by
    simp only [bashCompleter] at h
    obtain ⟨a, ha, h⟩ := ok_bind h
    obtain ⟨f, hf, h⟩ := ok_bind h
    rw [show useHelper bashRepo ctxt.pre (S "value_list") = .ok (realName ctxt.pre (S "value_list")) from rfl] at hf
    simp at hf; subst hf
    simp at h; subst h
    simp only [Proper] at hv
    simp only [Works] at hw
    simp only [Mixes] at hm
    obtain ⟨inner, h1, h2⟩ := bash_does ctxt hp a.2 c hv.1 hw dyn a ha (fun e he => he) false
    have h3 := overwrites_code ctxt hp a.2 henv c hm hv.1 hw dyn a ha (fun e he => he) inner h1
    refine Both.wrap (a := listStmts ⟨ctxt.pre, ctxt.v212, []⟩ o inner) ?_ (fun append =>
      reads_code _ _ _ _ ?_ (reads_list ctxt.pre hp ⟨ctxt.pre, ctxt.v212, []⟩ rfl o hv.2 _ inner h1))
    · exact OrdinaryCode.list h3
    · simp [listStmts]
  | .keyValueList ps vs ks cond, hv, hw, hm, dyn, r, h => by
    simp only [bashCompleter] at h
    obtain ⟨a, ha, h⟩ := ok_bind h
    obtain ⟨f, hf, h⟩ := ok_bind h
    rw [(helper_names ctxt.pre).1] at hf
    cases hf
    cases h
    simp only [Proper] at hv
    simp only [Works] at hw
    obtain ⟨pushes, h1, h2⟩ := bash_does_keys ctxt hp a.2 true cond ks hv hw dyn a ha (fun e he => he)
    exact Both.wrap (OrdinaryCode.keys h2 _ (fun more => sound_helper henv ⟨ctxt.pre, ctxt.v212, []⟩ "key_value_list" _ (by decide)))
      (fun append => reads_keyList ctxt.pre hp ⟨ctxt.pre, ctxt.v212, []⟩ rfl _ append cond a.1 pushes h1 ps vs)
  | .keyValuePair vs ks cond, hv, hw, hm, dyn, r, h => by
    simp only [bashCompleter] at h
    obtain ⟨a, ha, h⟩ := ok_bind h
    obtain ⟨f, hf, h⟩ := ok_bind h
    rw [(helper_names ctxt.pre).2] at hf
    cases hf
    cases h
    simp only [Proper] at hv
    simp only [Works] at hw
    obtain ⟨pushes, h1, h2⟩ := bash_does_keys ctxt hp a.2 false cond ks hv hw dyn a ha (fun e he => he)
    exact Both.wrap (OrdinaryCode.keys h2 _ (fun more => sound_helper henv ⟨ctxt.pre, ctxt.v212, []⟩ "key_value_pair" _ (by decide)))
      (fun append => reads_keyPair ctxt.pre hp ⟨ctxt.pre, ctxt.v212, []⟩ rfl _ append cond a.1 pushes h1 vs)
  | .void n, hv, hw, hm, dyn, r, h => by
    simp only [bashCompleter] at h
    obtain ⟨a, ha, h⟩ := ok_bind h
    simp at h; subst h
    exact both_void ctxt henv _ n (by simpa only [Proper] using hv) (by simpa only [Works] using hw) a ha
  | .none, hv, hw, hm, dyn, r, h => by simp only [bashCompleter] at h; cases h; exact Both.nothing env _
  | .commandArg, hv, hw, hm, dyn, r, h => by simp only [bashCompleter] at h; cases h; exact Both.nothing env _
  | .date _, hv, hw, hm, dyn, r, h => by simp only [bashCompleter] at h; cases h; exact Both.nothing env _
  | .choices c, hv, hw, hm, dyn, r, h => by
    simp only [bashCompleter] at h; cases h; exact Both.choices hp henv c
  | .command p a b, hv, hw, hm, dyn, r, h => by
    simp only [Mixes] at hm
    obtain ⟨rfl, rfl, rfl⟩ := hm
    simp only [bashCompleter] at h; cases h
    simp only [Proper] at hv
    exact Both.compgen (fun append => reads_command _ none none none hv.1 hv.2.1 hv.2.2 append)
  | .directory d, hv, hw, hm, dyn, r, h => by
    simp only [bashCompleter] at h; cases h
    simp only [Proper] at hv
    exact Both.wrap (OrdinaryCode.inDir (sound_filedir henv ⟨ctxt.pre, ctxt.v212, []⟩ _) d)
      (fun append => reads_directory ctxt [] _ d hv append)
  | .file o, hv, hw, hm, dyn, r, h => by
    simp only [bashCompleter] at h; obtain ⟨a, ha, h⟩ := ok_bind h; cases h
    simp only [Proper] at hv
    obtain ⟨obj, ho, h2⟩ := reads_file ctxt hp [] (realName ctxt.pre (S "values")) o hv
    rw [ho] at ha; cases ha
    exact Both.wrap (OrdinaryCode.file henv ⟨ctxt.pre, ctxt.v212, []⟩ o) h2
  | .directoryList d l, hv, hw, hm, dyn, r, h => by simp [Mixes] at hm
  | .fileList o l, hv, hw, hm, dyn, r, h => by simp [Mixes] at hm
  | .execInternal c, hv, hw, hm, dyn, r, h => by simp [Mixes] at hm
  | .prefix p c, hv, hw, hm, dyn, r, h => by simp [Mixes] at hm
  | .exec c, hv, hw, hm, dyn, r, h => by
    simp only [bashCompleter] at h; obtain ⟨a, ha, h⟩ := ok_bind h; cases h
    exact both_helper1 ctxt henv _ "exec" c (by decide) a ⟨_, rfl⟩ ha
  | .execFast c, hv, hw, hm, dyn, r, h => by
    simp only [bashCompleter] at h; obtain ⟨a, ha, h⟩ := ok_bind h; cases h
    exact both_helper1 ctxt henv _ "exec_fast" c (by decide) a ⟨_, rfl⟩ ha
  | .integer o, hv, hw, hm, dyn, r, h => by
    simp only [bashCompleter] at h; obtain ⟨a, ha, h⟩ := ok_bind h; cases h
    exact both_number ctxt henv _ o a ha
  | .float o, hv, hw, hm, dyn, r, h => by
    simp only [bashCompleter] at h; obtain ⟨a, ha, h⟩ := ok_bind h; cases h
    exact both_number ctxt henv _ o a ha
  | .history c, hv, hw, hm, dyn, r, h => by
    simp only [bashCompleter] at h; obtain ⟨a, ha, h⟩ := ok_bind h; cases h
    exact both_helper1 ctxt henv _ "history" c (by decide) a ⟨_, rfl⟩ ha
  | .mimeFile c, hv, hw, hm, dyn, r, h => by
    simp only [bashCompleter] at h; obtain ⟨a, ha, h⟩ := ok_bind h; cases h
    exact both_helper1 ctxt henv _ "mime_file" c (by decide) a ⟨_, rfl⟩ ha
  | .ipAddress t, hv, hw, hm, dyn, r, h => by
    simp only [bashCompleter] at h; cases h
    obtain ⟨a, h1, h2⟩ := OrdinaryCode.ip henv ⟨ctxt.pre, ctxt.v212, []⟩ t
    exact Both.wrap h1 (fun append => by rw [← h2]; exact reads_ip ctxt [] _ t append)
  | .keyValueListExec p v c, hv, hw, hm, dyn, r, h => by
    simp only [bashCompleter] at h; obtain ⟨a, ha, h⟩ := ok_bind h; cases h
    rw [show useHelper bashRepo ctxt.pre (S "key_value_list_exec") =
      .ok (realName ctxt.pre (S "key_value_list_exec")) from rfl] at ha
    cases ha
    exact Both.func (realName_not_local _ _) (sound_helper henv ⟨ctxt.pre, true, []⟩ "key_value_list_exec" _ (by decide))
  | .keyValuePairExec v c, hv, hw, hm, dyn, r, h => by
    simp only [bashCompleter] at h; obtain ⟨a, ha, h⟩ := ok_bind h; cases h
    rw [show useHelper bashRepo ctxt.pre (S "key_value_pair_exec") =
      .ok (realName ctxt.pre (S "key_value_pair_exec")) from rfl] at ha
    cases ha
    exact Both.func (realName_not_local _ _) (sound_helper henv ⟨ctxt.pre, true, []⟩ "key_value_pair_exec" _ (by decide))
  | .range a b s, hv, hw, hm, dyn, r, h => by
    simp only [bashCompleter] at h; cases h
    exact Both.compgen (fun append => reads_bashRange _ a b s append)
  | .valueList v o, hv, hw, hm, dyn, r, h => by
    simp only [bashCompleter] at h; obtain ⟨a, ha, h⟩ := ok_bind h; cases h
    rw [show bashValueList ctxt v o = .ok (.func ([realName ctxt.pre (S "value_list")] ++
      (if o.duplicates then [S "-d"] else []) ++ [o.separator] ++ v.words)) from rfl] at ha
    cases ha
    exact Both.func (realName_not_local _ _) (sound_helper henv ⟨ctxt.pre, true, []⟩ "value_list" _ (by decide))
theorem both_comps {env : Env} (ctxt : BashCtxt) (hp : ∀ c ∈ ctxt.pre, isSafeChar c = true) (henv : Sound env ctxt.pre) :
    ∀ (cs : Comps) (_ : ProperAll cs) (_ : WorksAll ctxt.v212 cs) (_ : MixesAll cs) (dyn : Dyn) (r : List BashObj × Dyn)
      (_ : bashCompleters ctxt cs dyn = .ok r), ∀ o ∈ r.1, Both env (realName ctxt.pre (S "values")) o
  | .nil, hv, hw, hm, dyn, r, h => by simp only [bashCompleters] at h; cases h; simp
  | .cons c cs, hv, hw, hm, dyn, r, h => by
    simp only [bashCompleters] at h
    obtain ⟨a, ha, h⟩ := ok_bind h
    obtain ⟨b, hb, h⟩ := ok_bind h
    cases h
    simp only [ProperAll] at hv
    simp only [WorksAll] at hw
    simp only [MixesAll] at hm
    intro o ho
    rcases List.mem_cons.mp ho with rfl | ho
    · exact both_comp ctxt hp henv c hv.1 hw.1 hm.1 dyn a ha
    · exact both_comps ctxt hp henv cs hv.2 hw.2 hm.2 a.2 b hb o ho
end

/-! ## The property -/

/-- **C79.** A combination of completers offers exactly what its parts offer when each of them is alone, for
every current word, `PATH` and directory. It is partial because of `Mixes`: without it the claim is false
(`C79_lost`, `C79_leak`, `C79_path`, `C79_cur`, `C79_prefix`). -/
theorem C79_combine_partial (ctxt : BashCtxt) (hp : ∀ c ∈ ctxt.pre, isSafeChar c = true) (cs : Comps) (hv : ProperAll cs)
    (hw : WorksAll ctxt.v212 cs) (hm : MixesAll cs) (dyn : Dyn) (hd : DynOk dyn) (env : Env) (henv : Sound env ctxt.pre) :
    ∃ os dyn', bashCompleters ctxt cs dyn = .ok (os, dyn') ∧
      bashCompleter ctxt (.combine cs) dyn = .ok (.combine os, dyn') ∧
      ∃ ss, BashCode.read ((BashObj.combine os).getCode (realName ctxt.pre (S "values")) false) = some ss ∧
        ∀ v x, x ∈ offers env ss v ↔
          ∃ o ∈ os, ∃ a, BashCode.read (o.getCode (realName ctxt.pre (S "values")) false) = some a ∧
            x ∈ offers env a v := by
  obtain ⟨r, h1, h2⟩ := bash_totals ctxt cs dyn hd
  refine ⟨r.1, r.2, h1, ?_, ?_⟩
  · simp only [bashCompleter, h1]; rfl
  · have hb := both_comps ctxt hp henv cs hv hw hm dyn r h1
    obtain ⟨_, a, h3, h4⟩ := both_combine hb
    refine ⟨a, h3.read, fun v x => ?_⟩
    rw [h4]
    simp only [partsOffer, List.mem_flatMap]
    constructor
    · rintro ⟨o, ho, hx⟩
      obtain ⟨a', _, h5, _⟩ := hb o ho
      exact ⟨o, ho, a', h5.read, by simpa [h5.read] using hx⟩
    · rintro ⟨o, ho, a', h5, hx⟩
      exact ⟨o, ho, by simpa [h5] using hx⟩

/-- Commands for the examples: `exec` prints one word and keeps earlier results, `value_list` offers all values
behind the current word, `prefix` calls a function that keeps earlier results. -/
def exampleEnv : Env where
  call ws v r :=
    match ws with
    | [] => r
    | f :: args =>
      if f = S "_p__values" then bashValues id v.cur r args
      else if f = S "_p__exec" then r ++ [v.cur ++ S "z"]
      else if f = S "_p__value_list" then (args.drop 1).map (v.cur ++ ·)
      else if f = S "_p__prefix" then (r ++ [S "z"]).map (S "p" ++ ·)
      else r
  gen args v :=
    if args.head? = some (S "-A") then [v.path] else (args.drop 1).filter (fun w => startsWith w v.cur)
  enter _ d := some d
  accepts _ _ _ := true

theorem exampleEnv_sound : Sound exampleEnv (S "_p") where
  values := ⟨id, fun args v r => by
    have : S "_p" ++ "__values".toList = S "_p__values" := by decide
    simp only [exampleEnv, this, if_true]⟩
  ordinary := by
    intro ws hws
    cases ws with
    | nil => exact ⟨fun _ _ => true, fun _ => [], fun v r => by simp [exampleEnv, filter_all]⟩
    | cons f args =>
      by_cases h1 : f = S "_p__values"
      · refine ⟨fun _ _ => args.head? = some (S "-a"), fun v => bashValues id v.cur [] args, fun v r => ?_⟩
        simp only [exampleEnv, h1, if_true, bashValues]
        by_cases ha : args.head? = some (S "-a") <;> simp [ha, filter_all, filter_none]
      · by_cases h2 : f = S "_p__exec"
        · refine ⟨fun _ _ => true, fun v => [v.cur ++ S "z"], fun v r => ?_⟩
          simp only [exampleEnv, h2, if_true, filter_all]
          rw [if_neg (by decide)]
        · by_cases h3 : f = S "_p__value_list"
          · refine ⟨fun _ _ => false, fun v => (args.drop 1).map (v.cur ++ ·), fun v r => ?_⟩
            simp only [exampleEnv, h3, if_true, filter_none]
            rw [if_neg (by decide), if_neg (by decide)]; rfl
          · have h4 : f ≠ S "_p__prefix" := by
              intro h; apply hws; rw [h]; simp [S]
            exact ⟨fun _ _ => true, fun _ => [], fun v r => by simp [exampleEnv, h1, h2, h3, h4, filter_all]⟩

/-- What a completer offers in the examples. -/
def combineOffers (c : Comp) (v : View) : Option (List Str) :=
  (bashCompleter ⟨S "_p", S "_p__x", true⟩ c []).toOption.bind (fun r =>
    (BashCode.read (r.1.getCode (S "_p__values") false)).map (fun a => offers exampleEnv a v))

/-- A completer of one word, for the examples. -/
def oneWord (s : String) : Comp := .choices (.list [.str (S s)])

/-- A case of **C79**: words, a command, and a list. -/
theorem C79_example :
    MixesAll (.cons (oneWord "x") (.cons (.exec (S "c")) (.cons (.list (oneWord "y") { separator := S "," }) .nil))) ∧
    Sound exampleEnv (S "_p") ∧
    combineOffers (.combine (.cons (oneWord "x") (.cons (.exec (S "c"))
      (.cons (.list (oneWord "y") { separator := S "," }) .nil)))) ⟨S "", S "", S ""⟩ =
      some [S "x", S "x", S "z", S "y"] ∧
    combineOffers (.list (oneWord "y") { separator := S "," }) ⟨S "", S "", S ""⟩ = some [S "y"] := by
  refine ⟨by simp [MixesAll, Mixes, oneWord, Overwrites], exampleEnv_sound, by decide +kernel, by decide +kernel⟩

/-- **C79** fails if a list behind another part is itself a combination: the results of the first part are
lost, because both use the variable `COMPREPLY_OLD`. -/
theorem C79_lost :
    combineOffers (oneWord "x") ⟨[], [], []⟩ = some [S "x"] ∧
    combineOffers (.combine (.cons (oneWord "x")
      (.cons (.list (.combine (.cons (oneWord "y") (.cons (.exec (S "c")) .nil))) { separator := S "," }) .nil)))
      ⟨[], [], []⟩ = some [S "y", S "y", S "y", S "z"] := by
  refine ⟨by decide +kernel, by decide +kernel⟩

/-- **C79** fails if a list behind another part has a completer that keeps earlier results: the results of the
first part become items of the list. -/
theorem C79_leak :
    combineOffers (oneWord "z,w") ⟨S "z,", [], []⟩ = some [S "z,w"] ∧
    combineOffers (.list (.exec (S "c")) { separator := S "," }) ⟨S "z,", [], []⟩ = some [S "z,z"] ∧
    combineOffers (.combine (.cons (oneWord "z,w") (.cons (.list (.exec (S "c")) { separator := S "," }) .nil)))
      ⟨S "z,", [], []⟩ = some [S "z,w", S "z,z,w", S "z,z"] := by
  refine ⟨by decide +kernel, by decide +kernel, by decide +kernel⟩

/-- **C79** fails behind a completer of commands with its own `PATH`: the later parts see that `PATH`. -/
theorem C79_path :
    combineOffers (.command none none none) ⟨[], S "/bin", []⟩ = some [S "/bin"] ∧
    combineOffers (.combine (.cons (.command (some (S "/opt")) none none) (.cons (.command none none none) .nil)))
      ⟨[], S "/bin", []⟩ = some [S "/opt", S "/opt"] := by
  refine ⟨by decide +kernel, by decide +kernel⟩

/-- **C79** fails behind a list of lists: the later parts see only the end of the current word, because both
lists use the variable `cur_old`. -/
theorem C79_cur :
    combineOffers (.exec (S "c")) ⟨S "p;q", [], []⟩ = some [S "p;qz"] ∧
    combineOffers (.combine (.cons (.list (.list (oneWord "a") { separator := S "," }) { separator := S ";" })
      (.cons (.exec (S "c")) .nil))) ⟨S "p;q", [], []⟩ = some [S "qz"] := by
  refine ⟨by decide +kernel, by decide +kernel⟩

/-- **C79** fails for `prefix` with a completer that keeps earlier results: these get the prefix too. -/
theorem C79_prefix :
    combineOffers (oneWord "x") ⟨[], [], []⟩ = some [S "x"] ∧
    combineOffers (.prefix (S "p") (.exec (S "c"))) ⟨[], [], []⟩ = some [S "pz"] ∧
    combineOffers (.combine (.cons (oneWord "x") (.cons (.prefix (S "p") (.exec (S "c"))) .nil))) ⟨[], [], []⟩ =
      some [S "x", S "px", S "pz"] := by
  refine ⟨by decide +kernel, by decide +kernel, by decide +kernel⟩

end CC
