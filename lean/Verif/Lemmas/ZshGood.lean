import Verif.Lemmas.ZshReads
import Verif.Props.FishUtils
/-!
# Lemmas about the completion objects of Zsh
-/

namespace CC
open BashCode ZshCompleter

/-! ## Names -/

/-- A name that can be written without quotes and is the name of a function. -/
def NameOk (n : Str) : Prop :=
  '_' ∈ n ∧ (∀ c, n.head? = some c → c.isAlpha = true ∨ c = '_') ∧ ∀ c ∈ n, isSafeChar c = true

theorem NameOk.ne {n : Str} (h : NameOk n) : n ≠ [] := by
  rintro rfl; simp [NameOk] at h

theorem NameOk.quote {n : Str} (h : NameOk n) : quote n = n := quote_safe n h.ne h.2.2

theorem NameOk.not_local {n : Str} (h : NameOk n) : n ≠ "local".toList := by
  rintro rfl
  have := h.1
  revert this; decide

theorem safe_no {n : Str} (h : ∀ c ∈ n, isSafeChar c = true) {ch : Char} (hc : ch = '\n' ∨ ch = '\\') : ch ∉ n := by
  intro hm
  have := safe_plain (h ch hm)
  rcases hc with rfl | rfl
  · exact this.2.1 rfl
  · exact this.2.2.2.2.1 rfl

theorem NameOk.no {n : Str} (h : NameOk n) {ch : Char} (hc : ch = '\n' ∨ ch = '\\') : ch ∉ n := safe_no h.2.2 hc

theorem NameOk.keeps {n : Str} (h : NameOk n) : ZshCode.keeps n = true := by
  refine keeps_head ?_
  intro he
  rcases h.2.1 _ he with h | h
  · revert h; decide
  · revert h; decide

theorem NameOk.append {n : Str} (h : NameOk n) (k : Nat) : NameOk (n ++ natStr k) := by
  refine ⟨by simp [h.1], ?_, ?_⟩
  · intro c hc
    cases n with
    | nil => exact absurd rfl h.ne
    | cons a b => exact h.2.1 c (by simpa using hc)
  · intro c hc
    rcases List.mem_append.mp hc with hc | hc
    · exact h.2.2 c hc
    · have hd := natStr_isDigit hc
      simp [isSafeChar, isAsciiAlnum, Char.isAlphanum, hd]

theorem nameLoop_named {base : Str} (hb : NameOk base) (taken : List Str) : ∀ (fuel num : Nat) (cand r : Str), NameOk cand →
    nameLoop base taken fuel num cand = some r → NameOk r
  | 0, _, _, _, _, h => by simp [nameLoop] at h
  | fuel + 1, num, cand, r, hc, h => by
    simp only [nameLoop] at h
    split at h
    · exact nameLoop_named hb taken fuel _ _ r (hb.append num) h
    · cases h; exact hc

theorem addDynFunc_named {base code : Str} {dyn : Dyn} {r : Str × Dyn} (hb : NameOk base) (hd : ∀ e ∈ dyn, NameOk e.2)
    (h : addDynFunc base code dyn = .ok r) : NameOk r.1 ∧ ∀ e ∈ r.2, NameOk e.2 := by
  unfold addDynFunc addDynamic at h
  cases hg : assocGet dyn code with
  | some n =>
    simp [hg] at h; subst h
    exact ⟨hd _ (assocGet_mem hg), hd⟩
  | none =>
    simp only [hg] at h
    cases hn : dynamicFuncname (dyn.length + 1) base dyn with
    | none => simp [hn] at h
    | some n =>
      have hN := nameLoop_named hb _ _ _ _ _ hb hn
      simp [hn] at h; subst h
      simp only [assocSet_new _ hg]
      refine ⟨hN, ?_⟩
      intro e he
      rcases List.mem_append.mp he with he | he
      · exact hd e he
      · simp at he; subst he; exact hN

theorem getFunction_kept {ctxt : ZshCtxt} {dyn : Dyn} {o : ZshObj} {r : Str × Dyn} (h : o.getFunction ctxt dyn = .ok r) :
    (∀ e ∈ dyn, e ∈ r.2) ∧ (NameOk ctxt.base → (∀ e ∈ dyn, NameOk e.2) → ∀ e ∈ r.2, NameOk e.2) := by
  have key : ∀ code, addDynFunc ctxt.base code dyn = .ok r →
      (∀ e ∈ dyn, e ∈ r.2) ∧ (NameOk ctxt.base → (∀ e ∈ dyn, NameOk e.2) → ∀ e ∈ r.2, NameOk e.2) :=
    fun code h => ⟨(addDynFunc_spec h).1, fun hb hd => (addDynFunc_named hb hd h).2⟩
  unfold ZshObj.getFunction at h
  split at h
  · cases h; exact ⟨fun e he => he, fun _ hd => hd⟩
  · exact key _ h
  · obtain ⟨body, _, h⟩ := ok_bind h
    exact key _ h
  · split at h
    · cases h; exact ⟨fun e he => he, fun _ hd => hd⟩
    · exact key _ h
  · exact key _ h
  · cases h; exact ⟨fun e he => he, fun _ hd => hd⟩

theorem getAction_kept {ctxt : ZshCtxt} {dyn : Dyn} {o : ZshObj} {r : Str × Dyn} (h : o.getAction ctxt dyn = .ok r) :
    (∀ e ∈ dyn, e ∈ r.2) ∧ (NameOk ctxt.base → (∀ e ∈ dyn, NameOk e.2) → ∀ e ∈ r.2, NameOk e.2) := by
  have key : ∀ code, addDynFunc ctxt.base code dyn = .ok r →
      (∀ e ∈ dyn, e ∈ r.2) ∧ (NameOk ctxt.base → (∀ e ∈ dyn, NameOk e.2) → ∀ e ∈ r.2, NameOk e.2) :=
    fun code h => ⟨(addDynFunc_spec h).1, fun hb hd => (addDynFunc_named hb hd h).2⟩
  unfold ZshObj.getAction at h
  split at h
  · cases h; exact ⟨fun e he => he, fun _ hd => hd⟩
  · obtain ⟨p, _, h⟩ := ok_bind h
    split at h
    · cases h; exact ⟨fun e he => he, fun _ hd => hd⟩
    · exact key _ h
  · split at h
    · cases h; exact ⟨fun e he => he, fun _ hd => hd⟩
    · exact key _ h
  · cases h; exact ⟨fun e he => he, fun _ hd => hd⟩
  · cases h; exact ⟨fun e he => he, fun _ hd => hd⟩

/-- Nothing is lost, and new names are names. -/
def Kept (ctxt : ZshCtxt) (dyn dyn' : Dyn) : Prop :=
  (∀ e ∈ dyn, e ∈ dyn') ∧ (NameOk ctxt.base → (∀ e ∈ dyn, NameOk e.2) → ∀ e ∈ dyn', NameOk e.2)

theorem Kept.refl (ctxt : ZshCtxt) (dyn : Dyn) : Kept ctxt dyn dyn := ⟨fun _ h => h, fun _ h => h⟩

theorem Kept.trans {ctxt : ZshCtxt} {a b c : Dyn} (h1 : Kept ctxt a b) (h2 : Kept ctxt b c) : Kept ctxt a c :=
  ⟨fun e he => h2.1 e (h1.1 e he), fun hb hd => h2.2 hb (h1.2 hb hd)⟩

theorem Kept.dyn {ctxt : ZshCtxt} {code : Str} {dyn : Dyn} {r : Str × Dyn} (h : addDynFunc ctxt.base code dyn = .ok r) :
    Kept ctxt dyn r.2 := ⟨(addDynFunc_spec h).1, fun hb hd => (addDynFunc_named hb hd h).2⟩

mutual
theorem zsh_kept (ctxt : ZshCtxt) : ∀ (c : Comp) (dyn : Dyn) (r : ZshObj × Dyn),
    zshCompleter ctxt c dyn = .ok r → Kept ctxt dyn r.2
  | .combine cs, dyn, r, h => by
    simp only [zshCompleter] at h
    obtain ⟨x, hx, h⟩ := ok_bind h
    obtain ⟨g, hg, h⟩ := ok_bind h
    cases h
    exact (zsh_kept_all ctxt cs dyn x hx).trans (Kept.dyn hg)
  | .list c o, dyn, r, h => by
    simp only [zshCompleter] at h
    obtain ⟨x, hx, h⟩ := ok_bind h
    obtain ⟨g, hg, h⟩ := ok_bind h
    cases h
    exact (zsh_kept ctxt c dyn x hx).trans (getFunction_kept hg)
  | .prefix p c, dyn, r, h => by
    simp only [zshCompleter] at h
    obtain ⟨f, _, h⟩ := ok_bind h
    obtain ⟨x, hx, h⟩ := ok_bind h
    obtain ⟨g, hg, h⟩ := ok_bind h
    cases h
    exact (zsh_kept ctxt c dyn x hx).trans (getFunction_kept hg)
  | .keyValueList ps vs ks cond, dyn, r, h => by
    simp only [zshCompleter] at h
    obtain ⟨x, hx, h⟩ := ok_bind h
    obtain ⟨g, hg, h⟩ := ok_bind h
    cases h
    exact (zsh_kept_keys ctxt true cond ks dyn x hx).trans (Kept.dyn hg)
  | .keyValuePair vs ks cond, dyn, r, h => by
    simp only [zshCompleter] at h
    obtain ⟨x, hx, h⟩ := ok_bind h
    obtain ⟨g, hg, h⟩ := ok_bind h
    cases h
    exact (zsh_kept_keys ctxt false cond ks dyn x hx).trans (Kept.dyn hg)
  | .valueList v o, dyn, r, h => by
    simp only [zshCompleter, zshValueList] at h
    split at h
    · obtain ⟨g, hg, h⟩ := ok_bind h
      cases h
      exact getFunction_kept hg
    · cases h; exact Kept.refl _ _
  | .directoryList d l, dyn, r, h => by
    simp only [zshCompleter] at h
    obtain ⟨x, hx, h⟩ := ok_bind h
    obtain ⟨g, hg, h⟩ := ok_bind h
    cases h
    exact getFunction_kept hg
  | .fileList d l, dyn, r, h => by
    simp only [zshCompleter] at h
    obtain ⟨x, hx, h⟩ := ok_bind h
    obtain ⟨g, hg, h⟩ := ok_bind h
    cases h
    exact getFunction_kept hg
  | .void n, dyn, r, h => by
    simp only [zshCompleter] at h; obtain ⟨x, hx, h⟩ := ok_bind h; cases h; exact Kept.refl _ _
  | .none, dyn, r, h => by simp only [zshCompleter] at h; cases h; exact Kept.refl _ _
  | .commandArg, dyn, r, h => by simp only [zshCompleter] at h; cases h; exact Kept.refl _ _
  | .date f, dyn, r, h => by simp only [zshCompleter] at h; cases h; exact Kept.refl _ _
  | .choices c, dyn, r, h => by simp only [zshCompleter] at h; cases h; exact Kept.refl _ _
  | .command p a b, dyn, r, h => by simp only [zshCompleter] at h; cases h; exact Kept.refl _ _
  | .directory d, dyn, r, h => by
    simp only [zshCompleter] at h; obtain ⟨x, hx, h⟩ := ok_bind h; cases h; exact Kept.refl _ _
  | .file o, dyn, r, h => by
    simp only [zshCompleter] at h; obtain ⟨x, hx, h⟩ := ok_bind h; cases h; exact Kept.refl _ _
  | .exec c, dyn, r, h => by
    simp only [zshCompleter] at h; obtain ⟨x, hx, h⟩ := ok_bind h; cases h; exact Kept.refl _ _
  | .execFast c, dyn, r, h => by
    simp only [zshCompleter] at h; obtain ⟨x, hx, h⟩ := ok_bind h; cases h; exact Kept.refl _ _
  | .execInternal c, dyn, r, h => by simp only [zshCompleter] at h; cases h; exact Kept.refl _ _
  | .integer o, dyn, r, h => by simp only [zshCompleter] at h; cases h; exact Kept.refl _ _
  | .float o, dyn, r, h => by simp only [zshCompleter] at h; cases h; exact Kept.refl _ _
  | .history p, dyn, r, h => by
    simp only [zshCompleter] at h; obtain ⟨x, hx, h⟩ := ok_bind h; cases h; exact Kept.refl _ _
  | .mimeFile p, dyn, r, h => by
    simp only [zshCompleter] at h; obtain ⟨x, hx, h⟩ := ok_bind h; cases h; exact Kept.refl _ _
  | .ipAddress t, dyn, r, h => by simp only [zshCompleter] at h; cases h; exact Kept.refl _ _
  | .keyValueListExec p v c, dyn, r, h => by
    simp only [zshCompleter] at h; obtain ⟨x, hx, h⟩ := ok_bind h; cases h; exact Kept.refl _ _
  | .keyValuePairExec v c, dyn, r, h => by
    simp only [zshCompleter] at h; obtain ⟨x, hx, h⟩ := ok_bind h; cases h; exact Kept.refl _ _
  | .range a b s, dyn, r, h => by simp only [zshCompleter] at h; cases h; exact Kept.refl _ _
theorem zsh_kept_all (ctxt : ZshCtxt) : ∀ (cs : Comps) (dyn : Dyn) (r : List Str × Dyn),
    zshCompleters ctxt cs dyn = .ok r → Kept ctxt dyn r.2
  | .nil, dyn, r, h => by simp only [zshCompleters] at h; cases h; exact Kept.refl _ _
  | .cons c cs, dyn, r, h => by
    simp only [zshCompleters] at h
    obtain ⟨x, hx, h⟩ := ok_bind h
    obtain ⟨a, ha, h⟩ := ok_bind h
    obtain ⟨y, hy, h⟩ := ok_bind h
    cases h
    exact (zsh_kept ctxt c dyn x hx).trans (Kept.trans (getAction_kept ha) (zsh_kept_all ctxt cs _ y hy))
theorem zsh_kept_keys (ctxt : ZshCtxt) (isList : Bool) (cond : Option Str) : ∀ (ks : KeyDefList) (dyn : Dyn) (r : List Str × Dyn),
    zshKeyDefs ctxt isList cond ks dyn = .ok r → Kept ctxt dyn r.2
  | .nil, dyn, r, h => by simp only [zshKeyDefs] at h; cases h; exact Kept.refl _ _
  | .bare k d ex ks, dyn, r, h => by
    simp only [zshKeyDefs] at h
    obtain ⟨y, hy, h⟩ := ok_bind h
    cases h
    exact zsh_kept_keys ctxt isList cond ks _ y hy
  | .cons k d ex c ks, dyn, r, h => by
    rw [zshKeyDefs.eq_def] at h
    split at h
    · simp at *
    · simp at *
    · rename_i e
      cases e
      obtain ⟨y, hy, h⟩ := ok_bind h
      cases h
      exact zsh_kept_keys ctxt isList cond ks _ y hy
    · rename_i e
      cases e
      obtain ⟨x, hx, h⟩ := ok_bind h
      obtain ⟨a, ha, h⟩ := ok_bind h
      obtain ⟨y, hy, h⟩ := ok_bind h
      cases h
      exact (zsh_kept ctxt _ _ x hx).trans (Kept.trans (getAction_kept ha) (zsh_kept_keys ctxt isList cond ks _ y hy))
end

/-! ## Objects that do what the completer is to do -/

/-- A completion object that does what the completer is to do. -/
inductive Good (s : Setting) (c : Comp) : ZshObj → Prop
  | call {f ws b} (hq : quote f = f) (hl : f ≠ "local".toList)
      (hh : b = false → TakesOptions s f ∧ ∀ c, f.head? = some c → c.isAlpha = true ∨ c = '_')
      (hk : ∀ w ∈ f :: ws, ZshCode.keeps w = true)
      (hn : (∀ x ∈ texts s c, '\n' ∉ x) → ∀ w ∈ f :: ws, '\n' ∉ w)
      (hs : (∀ x ∈ texts s c, '\\' ∉ x) → ∀ w ∈ f :: ws, bsOk w = true)
      (hd : Does s c (.run [.call (f :: ws)])) : Good s c (.func (f :: ws) b)
  | code {code} (hc : c = .execInternal code) : Good s c (.func [code] true)
  | nothing (hc : c = .none) : Good s c (.func [S " "] false)
  | choices {x} (hc : c = .choices x) : Good s c (.choices x)
  | command {p a b} (hc : c = .command p a b) : Good s c (.command (pathCode p a b))
  | range {a b st} (hc : c = .range a b st) : Good s c (.range a b st)
  | combined {g} (hg : NameOk g) (hd : Does s c (.run [.call [g]])) : Good s c (.combined g)

theorem zshCmd_eq {f : Str} (hq : quote f = f) (ws : List Str) : zshCmd (f :: ws) = joinQuoted (f :: ws) := by
  cases ws with
  | nil => simp [zshCmd, joinQuoted, joinWith, hq]
  | cons w ws => rfl

theorem read_name {n : Str} (h : NameOk n) : ZshCode.read n = some [.call [n]] := by
  have := zread_call (ws := []) h.not_local (by simpa using h.keeps)
  simpa [joinQuoted, joinWith, h.quote] using this

theorem head_joinQuoted {f : Str} (hq : quote f = f) (hne : f ≠ []) (ws : List Str) : (joinQuoted (f :: ws)).head? = f.head? := by
  cases f with
  | nil => exact absurd rfl hne
  | cons a b =>
    cases ws with
    | nil => simp [joinQuoted, joinWith, hq]
    | cons w ws => simp [joinQuoted, joinWith, hq]

theorem quote_ne {f : Str} (hq : quote f = f) : f ≠ [] := by
  rintro rfl; revert hq; decide

/-- `a` is the action `t`, quoted, and `t` does what the completer is to do. -/
structure Acts (s : Setting) (c : Comp) (a t : Str) : Prop where
  quoted : a = quote t
  does : ∃ task, Action s t task ∧ Does s c task
  newline : (∀ x ∈ texts s c, '\n' ∉ x) → '\n' ∉ t
  backslash : (∀ x ∈ texts s c, '\\' ∉ x) → bsOk t = true

theorem acts_name {s : Setting} {c : Comp} {n code : Str} {task : Task} (hn : NameOk n) (hF : (code, n) ∈ s.functions)
    (hb : Body s code task) (hd : Does s c task) : Acts s c n n :=
  ⟨hn.quote.symm, ⟨task, .function hn.2.1 (read_name hn) hF hb, hd⟩, fun _ => hn.no (Or.inl rfl),
    fun _ => bsOk_none (hn.no (Or.inr rfl))⟩

theorem acts_braces {s : Setting} {c : Comp} {code : Str} {ss : List Stmt} (hr : ZshCode.read code = some ss)
    (hd : Does s c (.run ss)) (hn : (∀ x ∈ texts s c, '\n' ∉ x) → '\n' ∉ code)
    (hb : (∀ x ∈ texts s c, '\\' ∉ x) → bsOk code = true) :
    Acts s c (quote (S "{" ++ code ++ S "}")) (S "{" ++ code ++ S "}") := by
  refine ⟨rfl, ⟨_, .code hr, hd⟩, ?_, ?_⟩
  · intro h; have := hn h; simp [S, this]
  · intro h
    rw [List.append_assoc, bsOk_append _ _ (by decide), bsOk_append _ _ (hb h)]; decide

/-! ## Choices -/

theorem fit_table {t : List (Choice × Option Choice)} (h : ChoicesFit (.table t)) :
    ∀ x ∈ (Choices.table t).words ++ (Choices.table t).descriptions, '\\' ∉ x.text := by
  intro x hx
  rcases List.mem_append.mp hx with hx | hx
  · obtain ⟨e, he, rfl⟩ := List.mem_map.mp hx
    exact (h.1 e he).1
  · obtain ⟨e, he, hd⟩ := List.mem_filterMap.mp hx
    exact h.2 e he x hd

theorem zshChoices_inline {m : Str} {n : Int} {c : Choices} {a : Str} (h : zshChoices m n c = .ok (.inline a)) :
    ∃ t, a = quote t ∧ ((∀ i ∈ c.offers, '\n' ∉ i.1 ∧ ∀ d, i.2 = some d → '\n' ∉ d) → '\n' ∉ t) ∧
      ((∀ i ∈ c.offers, '\\' ∉ i.1 ∧ ∀ d, i.2 = some d → '\\' ∉ d) → bsOk t = true) := by
  cases c with
  | list l =>
    simp only [zshChoices, zshListAction] at h
    split at h
    · simp only [Except.ok.injEq, Placed.inline.injEq] at h
      refine ⟨_, h.symm, ?_, ?_⟩
      · intro hn
        have : '\n' ∉ joinWith [' '] (l.map (fun c => quote c.text)) := by
          refine joinWith_not_mem (by decide) ?_
          intro w hw
          obtain ⟨c, hc, rfl⟩ := List.mem_map.mp hw
          exact nl_quote (hn (c.text, none) (List.mem_map.mpr ⟨c, hc, rfl⟩)).1
        simp [S, this]
      · intro hn
        rw [List.append_assoc, bsOk_append _ _ (by decide), bsOk_append]
        · decide
        · refine joinWith_bsOk (by decide) ?_
          intro w hw
          obtain ⟨c, hc, rfl⟩ := List.mem_map.mp hw
          exact bsOk_quote (bsOk_none (hn (c.text, none) (List.mem_map.mpr ⟨c, hc, rfl⟩)).1)
    · obtain ⟨f, _, h⟩ := ok_bind h
      cases h
  | table t =>
    simp only [zshChoices, zshDictAction, Except.ok.injEq] at h
    split at h
    · simp only [Placed.inline.injEq] at h
      refine ⟨_, h.symm, ?_, ?_⟩
      · intro hn
        have : '\n' ∉ joinWith [' '] (t.map zshDictItem) := by
          refine joinWith_not_mem (by decide) ?_
          intro w hw
          obtain ⟨e, he, rfl⟩ := List.mem_map.mp hw
          have := hn _ (List.mem_map.mpr ⟨e, he, rfl⟩)
          simp only [zshDictItem]
          have h1 := nl_quote this.1
          obtain ⟨e1, e2⟩ := e
          cases e2 with
          | none => simp [str0, h1]
          | some d =>
            by_cases hd : d.text = []
            · simp [str0, hd, h1]
            · have h2 := nl_quote (this.2 d.text (by simp [hd]))
              simp [str0, hd, h1, h2, S]
        simp [S, this]
      · intro hn
        rw [List.append_assoc, bsOk_append _ _ (by decide), bsOk_append]
        · decide
        · refine joinWith_bsOk (by decide) ?_
          intro w hw
          obtain ⟨e, he, rfl⟩ := List.mem_map.mp hw
          have := hn _ (List.mem_map.mpr ⟨e, he, rfl⟩)
          simp only [zshDictItem]
          have h1 := bsOk_quote (bsOk_none this.1)
          rw [bsOk_append _ _ h1]
          obtain ⟨e1, e2⟩ := e
          cases e2 with
          | none => simp [str0, bsOk]
          | some d =>
            by_cases hd : d.text = []
            · simp [str0, hd, bsOk]
            · have h2 := bsOk_quote (bsOk_none (this.2 d.text (by simp [hd])))
              simp only [str0, List.isEmpty_iff, hd, if_false]
              rw [bsOk_append _ _ (by decide), h2]
    · cases h

theorem zshChoices_function {m : Str} {n : Int} {c : Choices} {b : Str} (h : zshChoices m n c = .ok (.function b)) :
    zshChoicesFunction m n c = .ok b := by
  cases c with
  | list l =>
    simp only [zshChoices, zshListAction] at h
    split at h
    · cases h
    · obtain ⟨f, hf, h⟩ := ok_bind h
      cases h
      exact hf
  | table t =>
    simp only [zshChoices, zshDictAction, Except.ok.injEq] at h
    split at h
    · cases h
    · cases h; rfl

theorem strings_of {l : List Choice} (h : ∀ c ∈ l, ∃ s, c = .str s) : ∃ l' : List Str, l = l'.map .str := by
  induction l with
  | nil => exact ⟨[], rfl⟩
  | cons c cs ih =>
    obtain ⟨s, rfl⟩ := h c (by simp)
    obtain ⟨l', rfl⟩ := ih (fun x hx => h x (by simp [hx]))
    exact ⟨s :: l', rfl⟩

theorem choices_function {m : Str} {n : Int} {c : Choices} {b : Str} (hf : ChoicesFit c) (h : zshChoicesFunction m n c = .ok b) :
    ZshWords.functionOffers b m c.offers := by
  cases c with
  | list l =>
    obtain ⟨l', rfl⟩ := strings_of ((C63_zsh_strings m n l).mp ⟨b, h⟩)
    obtain ⟨body, h1, h2⟩ := C63_zsh_list_function_partial m n l' (by
      intro s hs
      exact hf (.str s) (List.mem_map.mpr ⟨s, hs, rfl⟩))
    rw [h] at h1; cases h1; exact h2
  | table t =>
    obtain ⟨body, h1, h2⟩ := C63_zsh_table_function_partial m n t (fit_table hf) (fun e he => (hf.1 e he).2)
    rw [h] at h1; cases h1; exact h2

theorem choices_acts {s : Setting} {ctxt : ZshCtxt} (hm : s.metavar = ctxt.metavar) (hb : NameOk ctxt.base) {dyn : Dyn}
    (hd : ∀ e ∈ dyn, NameOk e.2) {x : Choices} (hf : ChoicesFit x) (hk : ∀ i ∈ x.offers, ZshCode.keeps i.1 = true)
    {a : Str × Dyn} (h : (ZshObj.choices x).getAction ctxt dyn = .ok a) (hF : ∀ e ∈ a.2, e ∈ s.functions) :
    ∃ t, Acts s (.choices x) a.1 t := by
  simp only [ZshObj.getAction] at h
  obtain ⟨p, hp, h⟩ := ok_bind h
  cases p with
  | inline action =>
    cases h
    obtain ⟨t, rfl, h1, h2⟩ := zshChoices_inline hp
    obtain ⟨t', h3, h4⟩ := C63_zsh_inline_partial _ _ _ _ hp (by
      rintro t rfl; exact fit_table hf)
    rw [C01_quote_roundtrip] at h3
    cases h3
    refine ⟨t, rfl, ⟨_, .offer h4 hk, rfl⟩, ?_, ?_⟩
    · intro hx
      refine h1 (fun i hi => ⟨hx _ ?_, fun d hd => hx _ ?_⟩)
      · exact List.mem_flatMap.mpr ⟨i, hi, by simp⟩
      · exact List.mem_flatMap.mpr ⟨i, hi, by simp [hd]⟩
    · intro hx
      refine h2 (fun i hi => ⟨hx _ ?_, fun d hd => hx _ ?_⟩)
      · exact List.mem_flatMap.mpr ⟨i, hi, by simp⟩
      · exact List.mem_flatMap.mpr ⟨i, hi, by simp [hd]⟩
  | function body =>
    simp only at h
    have hn := addDynFunc_named hb hd h
    have hin := hF _ (addDynFunc_spec h).2
    exact ⟨a.1, acts_name hn.1 hin (.offer (hm ▸ choices_function hf (zshChoices_function hp)) hk) rfl⟩

/-! ## Commands -/

theorem reads_pathCode (p a b : Option Str) (hp : BashCompleter.NotEmpty p) (ha : BashCompleter.NotEmpty a)
    (hb : BashCompleter.NotEmpty b) : (pathCode p a b = none ∧ BashCompleter.pathStmts p a b = []) ∨
    ∃ code ps, pathCode p a b = some code ∧ BashCompleter.pathStmts p a b = [.path ps] ∧ ReadsAs code [.path ps] := by
  have pp : ∀ s : Str, s ≠ [] → pieces "PATH".toList [] (chs s) = some [some s] := by
    intro s hs
    have := pieces_chs "PATH".toList [] s []
    simp only [List.append_nil] at this
    rw [this]; simp [pieces, hs]
  rcases not_empty_cases hp with ⟨rfl, h1⟩ | ⟨p, rfl, h1⟩
  · rcases not_empty_cases ha with ⟨rfl, h2⟩ | ⟨a, rfl, h2⟩
    · rcases not_empty_cases hb with ⟨rfl, h3⟩ | ⟨b, rfl, h3⟩
      · exact Or.inl ⟨rfl, rfl⟩
      · refine Or.inr ⟨S "local -x PATH=" ++ (quote b ++ S ":\"$PATH\""), _, by simp [pathCode, h1, h3], rfl, ?_⟩
        refine reads_path (segs := chs b ++ [.ch ':', .exp "PATH".toList]) ?_ ?_
        · rw [run_append, run_quote_word, Option.bind_some, run_path_end]; simp
        · rw [pieces_chs]; simp [pieces]
    · rcases not_empty_cases hb with ⟨rfl, h3⟩ | ⟨b, rfl, h3⟩
      · refine Or.inr ⟨S "local -x PATH=" ++ (S "\"$PATH\":" ++ quote a), _, by simp [pathCode, h1, h2, S], rfl, ?_⟩
        refine reads_path (segs := [.exp "PATH".toList, .ch ':'] ++ chs a) ?_ ?_
        · rw [run_append, run_path_start, Option.bind_some, run_quote_word]; simp
        · have := pieces_chs "PATH".toList [':'] a []
          simp only [List.append_nil] at this
          have hh : pieces ['P', 'A', 'T', 'H'] [':'] (chs a) = some [some (':' :: a)] := by
            rw [show ['P', 'A', 'T', 'H'] = "PATH".toList from rfl, this]; simp [pieces]
          simp [pieces, hh]
      · refine Or.inr ⟨S "local -x PATH=" ++ (quote b ++ (S ":\"$PATH\":" ++ quote a)), _,
          by simp [pathCode, h1, h2, h3], rfl, ?_⟩
        refine reads_path (segs := chs b ++ [.ch ':', .exp "PATH".toList, .ch ':'] ++ chs a) ?_ ?_
        · rw [run_append, run_quote_word, Option.bind_some, run_append, run_path_mid, Option.bind_some, run_quote_word]; simp
        · have := pieces_chs "PATH".toList [':'] a []
          simp only [List.append_nil] at this
          have hh : pieces ['P', 'A', 'T', 'H'] [':'] (chs a) = some [some (':' :: a)] := by
            rw [show ['P', 'A', 'T', 'H'] = "PATH".toList from rfl, this]; simp [pieces]
          rw [List.append_assoc, pieces_chs]; simp [pieces, hh]
  · have hne : p ≠ [] := fun h => hp (by rw [h])
    refine Or.inr ⟨S "local -x PATH=" ++ quote p, _, by simp [pathCode, h1], rfl, ?_⟩
    exact reads_path (segs := chs p) (run_quote_word _ _ _ _) (pp p hne)

theorem named_command_names : NameOk (S "_command_names") := by
  refine ⟨by decide, ?_, by decide⟩
  intro c hc; simp [S] at hc; subst hc; exact Or.inr rfl

theorem body_command (s : Setting) {p a b : Option Str} {code : Str} {ps : List (Option Str)}
    (hr : ReadsAs code [.path ps]) (he : BashCompleter.pathStmts p a b = [.path ps]) :
    Body s (zshCommandCode code) (.run (BashCompleter.pathStmts p a b ++ [.call ["_command_names".toList]])) := by
  refine .code (zread_of ?_ ?_)
  · have h2 := reads_call (S "_command_names") [] (by decide)
    rw [show joinQuoted [S "_command_names"] = S "_command_names" by decide] at h2
    have := hr.append h2
    rw [he]
    simpa [zshCommandCode, S] using this
  · rw [he]; intro st hst w hw
    simp at hst
    rcases hst with rfl | rfl
    · simp [ZshCode.words] at hw
    · simp [ZshCode.words] at hw
      subst hw; decide

end CC
