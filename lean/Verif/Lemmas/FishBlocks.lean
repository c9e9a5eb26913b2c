import Verif.Lemmas.FishLines
import Verif.Lemmas.FishScript
import Verif.Props.FishScript
/-!
# Lemmas: the blocks of the generated Fish script
-/

namespace CC
namespace FishReads
open FishCode
open ShellGrammar (Tok)

/-! ## Texts and tokens of the conditions -/

theorem getConditions_eq (cs : List FishCond) (w : List (Tok Cond)) :
    getConditions cs w = if w.isEmpty then .ok ((optimizedConditions cs).map FishCond.code)
      else (genTokens whenPrim w).map (fun code => (optimizedConditions cs).map FishCond.code ++ [code]) := by
  unfold getConditions
  split
  · rfl
  · have e : genTokens (fun c => (queryCond false c).map (·.map (fun t => match t with
        | .cmd p => .cmd (FishPrim.prim p) | .bang => .bang | .lpar => .lpar | .rpar => .rpar
        | .and => .and | .or => .or))) w = genTokens whenPrim w := rfl
    split
    · rename_i code h
      rw [show genTokens whenPrim w = .ok code from e.symm.trans h]; rfl
    · rename_i e' h
      rw [show genTokens whenPrim w = .error e' from e.symm.trans h]; rfl

theorem whenPrim_ok (w : List (Tok Cond)) : ∃ code, genTokens whenPrim w = .ok code :=
  genTokens_ok whenPrim (fun c => by cases c <;> exact ⟨_, rfl⟩) w

theorem conditionTexts_ok (cs : List FishCond) (w : List (Tok Cond)) : ∃ texts, conditionTexts cs w = .ok texts := by
  unfold conditionTexts
  simp only
  split
  · exact ⟨_, rfl⟩
  · obtain ⟨code, h⟩ := whenPrim_ok w
    rw [h]; exact ⟨_, rfl⟩

/-- The primitive commands of a condition. -/
def primsIn (ts : List (Tok FishPrim)) : List FishPrim := ts.filterMap (fun t => match t with | .cmd p => some p | _ => none)

theorem mem_primsIn {ts : List (Tok FishPrim)} {p : FishPrim} : p ∈ primsIn ts ↔ .cmd p ∈ ts := by
  unfold primsIn
  rw [List.mem_filterMap]
  constructor
  · rintro ⟨t, ht, h⟩
    cases t <;> simp at h
    subst h; exact ht
  · intro h; exact ⟨_, h, rfl⟩

theorem mem_prims {d : FishDef} {tss : List (List (Tok FishPrim))} (h : getConditions d.conds d.when_ = .ok tss) {p : FishPrim} :
    p ∈ d.prims ↔ ∃ ts ∈ tss, .cmd p ∈ ts := by
  unfold FishDef.prims
  rw [h]
  simp only
  have := @mem_primsIn tss.flatten p
  rw [List.mem_flatten] at this
  exact this

theorem texts_tokens {vars : List (Str × Str)} {name : FishPrim → Str} {cs : List FishCond} {w : List (Tok Cond)} {texts : List Str}
    {tss : List (List (Tok FishPrim))} (h1 : conditionTexts cs w = .ok texts) (h2 : getConditions cs w = .ok tss)
    (hr : ∀ ts ∈ tss, ∀ p, .cmd p ∈ ts → PrimReads p ∧ FishRun.value vars p.variable = some (name p)) :
    All2 (fun t ts => ∃ x, Reads vars t x ∧ CondText name ts x) texts tss := by
  rw [getConditions_eq] at h2
  unfold conditionTexts at h1
  simp only at h1
  have hbase : ∀ l : List FishCond, (∀ c ∈ l, ∀ p, .cmd p ∈ c.code → PrimReads p ∧ FishRun.value vars p.variable = some (name p)) →
      All2 (fun t ts => ∃ x, Reads vars t x ∧ CondText name ts x) (l.map (fun c => inDouble c.text)) (l.map FishCond.code) := by
    intro l
    induction l with
    | nil => intro _; exact .nil
    | cons c r ih =>
      intro h
      obtain ⟨x, a, b⟩ := cond_text (vars := vars) (name := name) c (h c (by simp))
      exact .cons ⟨x, reads_dq a, b⟩ (ih (fun y hy => h y (by simp [hy])))
  split at h1
  · rename_i he
    rw [if_pos he] at h2
    cases h1; cases h2
    exact hbase _ (fun c hc p hp => hr _ (List.mem_map.mpr ⟨c, hc, rfl⟩) p hp)
  · rename_i he
    rw [if_neg he] at h2
    obtain ⟨code, hcode⟩ := whenPrim_ok w
    rw [hcode] at h1 h2
    cases h1; cases h2
    refine all2_append (hbase _ (fun c hc p hp => hr _ (by simp only [List.mem_append, List.mem_map]; exact Or.inl ⟨c, hc, rfl⟩) p hp)) ?_
    obtain ⟨x, a, b⟩ := when_text (vars := vars) (name := name) code (hr code (by simp))
    exact .cons ⟨x, reads_dq a, b⟩ .nil

theorem reads_fun {vars : List (Str × Str)} {t x y : Str} (h1 : Reads vars t x) (h2 : Reads vars t y) : x = y := by
  obtain ⟨s1, a1, b1⟩ := h1
  obtain ⟨s2, a2, b2⟩ := h2
  obtain ⟨st, e1, e2, -⟩ := a1 [] []
  obtain ⟨st', f1, f2, -⟩ := a2 [] []
  rw [e1] at f1; cases f1
  rw [e2] at f2
  simp at f2
  subst f2
  rw [b1] at b2
  cases b2; rfl

/-! ## Variables -/

/-- The variables of the script are set. -/
structure Env (prog pre : Str) (funcs : List Str) (vars : List (Str × Str)) : Prop where
  prog : FishRun.value vars (S "prog") = some prog
  prepare : FishRun.value vars (S "P") = some (realName pre (S "prepare"))
  functions : ∀ f ∈ funcs, FishRun.value vars f = some (realName pre f)

theorem value_cons (vars : List (Str × Str)) (n m x : Str) :
    FishRun.value ((m, x) :: vars) n = if m = n then some x else FishRun.value vars n := by
  unfold FishRun.value
  rw [List.find?_cons]
  by_cases h : m = n <;> simp [h]

theorem env_set {prog pre : Str} {funcs : List Str} (hf : ∀ f ∈ funcs, f ∈ scriptFunctions) {vars : List (Str × Str)}
    (h : Env prog pre funcs vars) (r x : Str) : Env prog pre funcs (('C' :: r, x) :: vars) := by
  have hC : ∀ f ∈ scriptFunctions, ∀ r, ¬ 'C' :: r = f := by
    intro f hf r e
    subst e
    have : ∀ f ∈ scriptFunctions, f.head? ≠ some 'C' := by decide
    exact this _ hf rfl
  refine ⟨?_, ?_, ?_⟩
  · rw [value_cons, if_neg (by intro e; cases e)]; exact h.prog
  · rw [value_cons, if_neg (by intro e; cases e)]; exact h.prepare
  · intro f hm
    rw [value_cons, if_neg (hC f (hf f hm) r)]
    exact h.functions f hm

theorem pad3_char {n : Nat} {c : Char} (h : c ∈ pad3 n) : c.isDigit = true := by
  unfold pad3 at h
  rcases List.mem_append.mp h with h | h
  · rw [List.mem_replicate] at h; rw [h.2]; decide
  · exact natStr_isDigit h

theorem digit_safe {c : Char} (h : c.isDigit = true) : isSafeChar c = true ∧ Fish.varChar c = true := by
  constructor
  · have : isAsciiAlnum c = true := by
      simp [isAsciiAlnum, Char.isAlphanum, h]
    simp [isSafeChar, this]
  · simp [Fish.varChar, Char.isAlphanum, h]

/-- A variable name. -/
def varName (i : Nat) : Str := S "C" ++ pad3 i

theorem varName_cons (i : Nat) : varName i = 'C' :: pad3 i := rfl

theorem varName_safe (i : Nat) : (∀ c ∈ varName i, isSafeChar c = true) ∧ ∀ c ∈ varName i, Fish.varChar c = true := by
  constructor
  · intro c hc
    rw [varName_cons] at hc
    rcases List.mem_cons.mp hc with rfl | hc
    · decide
    · exact (digit_safe (pad3_char hc)).1
  · intro c hc
    rw [varName_cons] at hc
    rcases List.mem_cons.mp hc with rfl | hc
    · decide
    · exact (digit_safe (pad3_char hc)).2

theorem varName_inj {i j : Nat} (h : varName i = varName j) : i = j := by
  rw [varName_cons, varName_cons] at h
  exact pad3_inj (List.cons.inj h).2

/-- The text stands for this one when the script runs. -/
def Stands (prog pre : Str) (funcs : List Str) (t x : Str) : Prop := ∃ vars, Env prog pre funcs vars ∧ Reads vars t x

theorem set_effects {prog pre : Str} {funcs : List Str} (hf : ∀ f ∈ funcs, f ∈ scriptFunctions) : ∀ (ds : List Str) (k : Nat)
    (a : FishRun.State), Env prog pre funcs a.vars → (∀ t ∈ ds, ∀ vars, Env prog pre funcs vars → ∃ x, Reads vars t x) →
    ∃ b : FishRun.State, Effects ((ds.zipIdx k).map (fun e => S "set -l " ++ varName e.2 ++ [' '] ++ e.1)) a b ∧
      b.entries = a.entries ∧ b.wraps = a.wraps ∧ Env prog pre funcs b.vars ∧
      (∀ i, i < k → FishRun.value b.vars (varName i) = FishRun.value a.vars (varName i)) ∧
      ∀ (j : Nat) (h : j < ds.length), ∃ x, FishRun.value b.vars (varName (k + j)) = some x ∧ Stands prog pre funcs ds[j] x := by
  intro ds
  induction ds with
  | nil => intro k a h _; exact ⟨a, .nil a, rfl, rfl, h, fun _ _ => rfl, fun j h => absurd h (by simp)⟩
  | cons t r ih =>
    intro k a henv hr
    obtain ⟨x, hx⟩ := hr t (by simp) a.vars henv
    obtain ⟨b, h1, h2, h3, h4, h5, h6⟩ := ih (k + 1) { a with vars := (varName k, x) :: a.vars }
      (env_set hf henv (pad3 k) x) (fun y hy => hr y (by simp [hy]))
    refine ⟨b, ?_, h2, h3, h4, ?_, ?_⟩
    · rw [List.zipIdx_cons, List.map_cons]
      exact .cons (effect_set (by simp [varName_cons]) (varName_safe k).1 hx) h1
    · intro i hi
      rw [h5 i (by omega)]
      show FishRun.value ((varName k, x) :: a.vars) _ = _
      rw [value_cons, if_neg]
      intro e; have := varName_inj e; omega
    · intro j hj
      cases j with
      | zero =>
        refine ⟨x, ?_, a.vars, henv, hx⟩
        rw [h5 (k + 0) (by omega)]
        show FishRun.value ((varName k, x) :: a.vars) _ = _
        rw [value_cons, Nat.add_zero, if_pos rfl]
      | succ j =>
        obtain ⟨y, h7, h8⟩ := h6 j (by simpa using hj)
        refine ⟨y, ?_, by simpa using h8⟩
        rw [← h7]
        congr 2
        omega

/-! ## The lines of a command -/

theorem adds_append (m : VarManager) (a b : List Str) :
    m.adds (a ++ b) = ((m.adds a).1 ++ ((m.adds a).2.adds b).1, ((m.adds a).2.adds b).2) := by
  induction a generalizing m with
  | nil => rfl
  | cons v vs ih => simp only [List.cons_append, VarManager.adds, ih]

theorem adds_length (m : VarManager) (a : List Str) : (m.adds a).1.length = a.length := by
  induction a generalizing m with
  | nil => rfl
  | cons v vs ih => simp [VarManager.adds, ih]

/-- The definition is registered as this entry. -/
def Registered (stacking : Bool) (prog pre : Str) (funcs : List Str) (d : FishDef × List FishArgItem) (e : FishRun.Entry) : Prop :=
  ∃ texts xs, conditionTexts d.1.conds d.1.when_ = .ok texts ∧ All2 (Stands prog pre funcs) texts xs ∧
    e = defEntry stacking prog d.1 d.2 (realName pre (S "prepare") :: xs)

theorem all2_map_reads {prog pre : Str} {funcs : List Str} {vars : List (Str × Str)} {pl : Str → Str} : ∀ (texts : List Str),
    (∀ t ∈ texts, ∃ x, Reads vars (pl t) x ∧ Stands prog pre funcs t x) →
    ∃ xs, All2 (Reads vars) (texts.map pl) xs ∧ All2 (Stands prog pre funcs) texts xs
  | [], _ => ⟨[], .nil, .nil⟩
  | t :: r, h => by
    obtain ⟨x, h1, h2⟩ := h t (by simp)
    obtain ⟨xs, h3, h4⟩ := all2_map_reads r (fun y hy => h y (by simp [hy]))
    exact ⟨x :: xs, .cons h1 h3, .cons h2 h4⟩

theorem lines_effects {prog pre : Str} {funcs : List Str} {inline stacking : Bool} {args : Nat → List Str}
    {items : Nat → List FishArgItem} {pl : Str → Str} (hinl : inline = true → ∀ t, pl t = t) :
    ∀ (ds : List FishDef) (i : Nat) (m : VarManager) (textss : List (List Str)),
    All2 (fun d texts => conditionTexts d.conds d.when_ = .ok texts) ds textss →
    (∀ e ∈ ds.zipIdx i, ParsesTo (args e.2) (items e.2) ∧ DefReads e.1 (items e.2)) →
    (inline = false → (m.adds textss.flatten).1 = textss.flatten.map pl) →
    ∃ lines, fishLines inline stacking args i ds m = .ok (lines, if inline then m else (m.adds textss.flatten).2) ∧
      lines.length = ds.length ∧
      ∀ a : FishRun.State, Env prog pre funcs a.vars →
        (∀ t ∈ textss.flatten, ∃ x, Reads a.vars (pl t) x ∧ Stands prog pre funcs t x) →
        ∃ es, Effects lines a { a with entries := a.entries ++ es } ∧
          All2 (Registered stacking prog pre funcs) ((ds.zipIdx i).map (fun e => (e.1, items e.2))) es := by
  intro ds i m textss h
  induction h generalizing i m with
  | nil =>
    intro _ _
    refine ⟨[], by cases inline <;> rfl, rfl, fun a _ _ => ⟨[], ?_, .nil⟩⟩
    simpa using Effects.nil a
  | @cons d texts ds textss hd hr ih =>
    intro hit hpl
    obtain ⟨hp, hread⟩ := hit (d, i) (by simp)
    -- the conditions of this definition
    have hplace : placeConditions inline m texts = (texts.map pl, if inline then m else (m.adds texts).2) := by
      unfold placeConditions
      cases inline with
      | true =>
        have : pl = id := by funext t; exact hinl rfl t
        simp [this]
      | false =>
        have h1 := hpl rfl
        rw [List.flatten_cons, adds_append, List.map_append] at h1
        have := (List.append_inj h1 (by rw [adds_length, List.length_map])).1
        simp only [Bool.false_eq_true, if_false]
        rw [← this]
    obtain ⟨c, letters, hc1, hc2, hc3⟩ := line_text stacking d (args i) (items i) hp (texts.map pl)
    have hline : fishLine inline stacking d (args i) m = .ok (c.get.1, if inline then m else (m.adds texts).2) := by
      unfold fishLine
      simp only [hd, bind, Except.bind]
      rw [hplace]
      simp only
      rw [show (completeCalls stacking d (args i) ++ (texts.map pl).map (FishCall.addCondition · true) ++
        [FishCall.insertCondition 0 (S "$P") true]) = defCalls stacking d (args i) (texts.map pl) from rfl, hc1]
    obtain ⟨lines, hl1, hl2, hl3⟩ := ih (i + 1) (if inline then m else (m.adds texts).2)
      (fun e he => hit e (by rw [List.zipIdx_cons]; exact List.mem_cons_of_mem _ he))
      (by
        intro hin
        subst hin
        have h1 := hpl rfl
        rw [List.flatten_cons, adds_append, List.map_append] at h1
        exact (List.append_inj h1 (by rw [adds_length, List.length_map])).2)
    refine ⟨c.get.1 :: lines, ?_, by simp [hl2], ?_⟩
    · simp only [fishLines, hline, bind, Except.bind, hl1]
      cases inline with
      | true => rfl
      | false => simp [adds_append]
    · intro a henv hvals
      obtain ⟨xs, hx1, hx2⟩ := all2_map_reads (pl := pl) texts (fun t ht => hvals t (by simp [ht]))
      have he := line_effect (stacking := stacking) hread hc2 (a := a) henv.prog henv.prepare hx1
      rw [← hc3] at he
      obtain ⟨es, he1, he2⟩ := hl3 { a with entries := a.entries ++ [defEntry stacking prog d (items i) (realName pre (S "prepare") :: xs)] }
        henv (fun t ht => hvals t (by simp only [List.flatten_cons, List.mem_append]; exact Or.inr ht))
      refine ⟨defEntry stacking prog d (items i) (realName pre (S "prepare") :: xs) :: es, ?_, ?_⟩
      rotate_left
      · rw [List.zipIdx_cons, List.map_cons]
        exact .cons ⟨texts, xs, hd, hx2, rfl⟩ he2
      · refine .cons he ?_
        simpa using he1

/-- What must hold of a command for its block. -/
structure BlockReads (pre : Str) (funcs : List Str) (items : Nat → List FishArgItem) (args : Nat → List Str) (ds : List FishDef) : Prop where
  defs : ∀ e ∈ ds.zipIdx, ParsesTo (args e.2) (items e.2) ∧ DefReads e.1 (items e.2)
  prims : ∀ d ∈ ds, ∀ p ∈ d.prims, PrimReads p ∧ p.variable ∈ funcs

theorem texts_all (ds : List FishDef) : ∃ textss, All2 (fun d texts => conditionTexts d.conds d.when_ = .ok texts) ds textss := by
  induction ds with
  | nil => exact ⟨[], .nil⟩
  | cons d ds ih =>
    obtain ⟨textss, h⟩ := ih
    obtain ⟨t, ht⟩ := conditionTexts_ok d.conds d.when_
    exact ⟨t :: textss, .cons ht h⟩

theorem all2_flatten_mem {ds : List FishDef} {textss : List (List Str)}
    (h : All2 (fun d texts => conditionTexts d.conds d.when_ = .ok texts) ds textss) {t : Str} (ht : t ∈ textss.flatten) :
    ∃ d ∈ ds, ∃ texts, conditionTexts d.conds d.when_ = .ok texts ∧ t ∈ texts := by
  induction h with
  | nil => simp at ht
  | @cons d texts ds textss hd _ ih =>
    rw [List.flatten_cons, List.mem_append] at ht
    rcases ht with ht | ht
    · exact ⟨d, by simp, texts, hd, ht⟩
    · obtain ⟨d', h1, h2⟩ := ih ht
      exact ⟨d', by simp [h1], h2⟩

theorem all2_left {α β : Type} {R : α → β → Prop} {as : List α} {bs : List β} (h : All2 R as bs) {a : α} (ha : a ∈ as) : ∃ b ∈ bs, R a b := by
  induction h with
  | nil => simp at ha
  | @cons x y as bs hr _ ih =>
    rcases List.mem_cons.mp ha with rfl | ha
    · exact ⟨y, by simp, hr⟩
    · obtain ⟨b, h1, h2⟩ := ih ha
      exact ⟨b, by simp [h1], h2⟩

theorem text_reads {prog pre : Str} {funcs : List Str} {vars : List (Str × Str)} (henv : Env prog pre funcs vars) {d : FishDef}
    (hp : ∀ p ∈ d.prims, PrimReads p ∧ p.variable ∈ funcs) {texts : List Str} (h : conditionTexts d.conds d.when_ = .ok texts)
    {t : Str} (ht : t ∈ texts) : ∃ x, Reads vars t x := by
  obtain ⟨tss, htss⟩ := getConditions_ok d.conds d.when_
  have := texts_tokens (vars := vars) (name := fun p => realName pre p.variable) h htss (by
    intro ts hts p hm
    obtain ⟨h1, h2⟩ := hp p ((mem_prims htss).mpr ⟨ts, hts, hm⟩)
    exact ⟨h1, henv.functions _ h2⟩)
  obtain ⟨ts, -, x, hx, -⟩ := all2_left this ht
  exact ⟨x, hx⟩

theorem block_effect {isRegex : Str → Bool} {prog pre : Str} {funcs : List Str} (hf : ∀ f ∈ funcs, f ∈ scriptFunctions)
    {inline stacking : Bool} {args : Nat → List Str} {items : Nat → List FishArgItem} {parents : List Cmd} {c : Cmd} {ds : List FishDef}
    (hds : fishDefsOf isRegex parents c = .ok ds) (hr : BlockReads pre funcs items args ds)
    (hn : ∀ x ∈ parents ++ [c], '\n' ∉ x.data.prog) :
    ∃ block, fishBlock isRegex inline stacking args parents c = .ok block ∧
      ∀ a : FishRun.State, Env prog pre funcs a.vars → ∃ b es, Effect (joinWith ['\n'] block) a b ∧ Env prog pre funcs b.vars ∧
        b.wraps = a.wraps ∧ b.entries = a.entries ++ es ∧
        All2 (Registered stacking prog pre funcs) (ds.zipIdx.map (fun e => (e.1, items e.2))) es := by
  obtain ⟨textss, htexts⟩ := texts_all ds
  obtain ⟨vs, hv1, hv2, hv3, hv4⟩ := C51_variables (S "C") textss.flatten
  have hlines := lines_effects (prog := prog) (pre := pre) (funcs := funcs) (inline := inline) (stacking := stacking) (args := args)
    (items := items) (pl := fun t => if inline then t else '$' :: varName (vs.idxOf t)) (by intro h t; simp [h]) ds 0 ⟨S "C", [], 0⟩ textss
    htexts hr.defs (by
      intro hi
      subst hi
      exact hv3)
  obtain ⟨lines, hl1, hl2, hl3⟩ := hlines
  have hblock : fishBlock isRegex inline stacking args parents c = .ok (if lines.isEmpty then [] else
      (S "# command " ++ joinWith [' '] ((parents ++ [c]).map (·.data.prog))) ::
        (if inline then [] else vs.zipIdx.map (fun e => S "set -l " ++ varName e.2 ++ [' '] ++ e.1)) ++ lines) := by
    unfold fishBlock
    simp only [hds, bind, Except.bind, hl1]
    split
    · rfl
    · cases inline with
      | true => rfl
      | false =>
        simp only [Bool.false_eq_true, if_false]
        rw [hv4]
        rfl
  refine ⟨_, hblock, ?_⟩
  intro a henv
  have hsub : ∀ t ∈ textss.flatten, ∀ vars, Env prog pre funcs vars → ∃ x, Reads vars t x := by
    intro t ht vars he
    obtain ⟨d, hd, texts, h1, h2⟩ := all2_flatten_mem htexts ht
    exact text_reads he (hr.prims d hd) h1 h2
  by_cases hempty : lines.isEmpty = true
  · have hnil : ds = [] := by
      have : lines = [] := by simpa using hempty
      rw [this] at hl2
      exact List.eq_nil_of_length_eq_zero hl2.symm
    subst hnil
    rw [if_pos hempty]
    exact ⟨a, [], effect_nil a, henv, rfl, by simp, .nil⟩
  · rw [if_neg hempty]
    have hlne : lines ≠ [] := by simpa using hempty
    -- the variables
    have hvars : ∃ b : FishRun.State, Effects (if inline then [] else vs.zipIdx.map (fun e => S "set -l " ++ varName e.2 ++ [' '] ++ e.1)) a b ∧
        b.entries = a.entries ∧ b.wraps = a.wraps ∧ Env prog pre funcs b.vars ∧
        ∀ t ∈ textss.flatten, ∃ x, Reads b.vars ((fun t => if inline then t else '$' :: varName (vs.idxOf t)) t) x ∧ Stands prog pre funcs t x := by
      cases inline with
      | true =>
        refine ⟨a, .nil a, rfl, rfl, henv, ?_⟩
        intro t ht
        obtain ⟨x, hx⟩ := hsub t ht a.vars henv
        exact ⟨x, hx, a.vars, henv, hx⟩
      | false =>
        obtain ⟨b, h1, h2, h3, h4, -, h6⟩ := set_effects (prog := prog) (pre := pre) hf vs 0 a henv
          (fun t ht vars he => hsub t ((hv2 t).mp ht) vars he)
        refine ⟨b, h1, h2, h3, h4, ?_⟩
        intro t ht
        have hm := (hv2 t).mpr ht
        have hlt := List.idxOf_lt_length_of_mem hm
        obtain ⟨x, h7, h8⟩ := h6 (vs.idxOf t) hlt
        rw [Nat.zero_add] at h7
        rw [List.getElem_idxOf hlt] at h8
        exact ⟨x, reads_name (by simp [varName_cons]) (varName_safe _).2 h7, h8⟩
    obtain ⟨b, b1, b2, b3, b4, b5⟩ := hvars
    obtain ⟨es, e1, e2⟩ := hl3 b b4 b5
    refine ⟨{ b with entries := b.entries ++ es }, es, ?_, b4, b3, by rw [← b2], e2⟩
    apply Effects.joined
    show Effects (('#' :: (S " command " ++ joinWith [' '] ((parents ++ [c]).map (·.data.prog)))) :: _) _ _
    refine .comment ?_ ?_ (effects_append b1 e1)
    · simp only [List.mem_append, not_or]
      refine ⟨by decide, ?_⟩
      have : ∀ l : List Cmd, (∀ x ∈ l, '\n' ∉ x.data.prog) → '\n' ∉ joinWith [' '] (l.map (·.data.prog)) := by
        intro l
        induction l with
        | nil => intro _; simp [joinWith]
        | cons y r ih =>
          intro h
          cases r with
          | nil => simpa [joinWith] using h y (by simp)
          | cons z r =>
            simp only [List.map_cons, joinWith, List.mem_append, not_or]
            refine ⟨⟨h y (by simp), by decide⟩, ?_⟩
            exact ih (fun x hx => h x (by simp [hx]))
      exact this _ hn
    · intro e
      exact hlne (List.append_eq_nil_iff.mp e).2

/-! ## All commands -/

/-- The definitions of the commands, each with the items of its arguments. -/
def withItems (items : List Cmd → Cmd → Nat → List FishArgItem) (l : List (List Cmd × Cmd)) (dss : List (List FishDef)) :
    List (FishDef × List FishArgItem) :=
  (l.zip dss).flatMap (fun x => x.2.zipIdx.map (fun e => (e.1, items x.1.1 x.1.2 e.2)))

theorem blocks_effect {isRegex : Str → Bool} {prog pre : Str} {funcs : List Str} (hf : ∀ f ∈ funcs, f ∈ scriptFunctions)
    {inline stacking : Bool} {args : List Cmd → Cmd → Nat → List Str} {items : List Cmd → Cmd → Nat → List FishArgItem} :
    ∀ (l : List (List Cmd × Cmd)) (dss : List (List FishDef)), mapE (fun e => fishDefsOf isRegex e.1 e.2) l = .ok dss →
    (∀ e ∈ l, ∀ ds, fishDefsOf isRegex e.1 e.2 = .ok ds → BlockReads pre funcs (items e.1 e.2) (args e.1 e.2) ds) →
    (∀ e ∈ l, ∀ x ∈ e.1 ++ [e.2], '\n' ∉ x.data.prog) →
    ∃ blocks, mapE (fun e => fishBlock isRegex inline stacking (args e.1 e.2) e.1 e.2) l = .ok blocks ∧
      ∀ a : FishRun.State, Env prog pre funcs a.vars → ∃ b es, Blocks (blocks.map (joinWith ['\n'])) a b ∧
        Env prog pre funcs b.vars ∧ b.wraps = a.wraps ∧ b.entries = a.entries ++ es ∧
        All2 (Registered stacking prog pre funcs) (withItems items l dss) es := by
  intro l
  induction l with
  | nil =>
    intro dss h _ _
    cases h
    exact ⟨[], rfl, fun a henv => ⟨a, [], .nil a, henv, rfl, by simp, .nil⟩⟩
  | cons e l ih =>
    intro dss h hr hn
    simp only [mapE, bind, Except.bind] at h
    cases h1 : fishDefsOf isRegex e.1 e.2 with
    | error er => rw [h1] at h; simp at h
    | ok ds =>
      rw [h1] at h
      cases h2 : mapE (fun e => fishDefsOf isRegex e.1 e.2) l with
      | error er => rw [h2] at h; simp at h
      | ok dss' =>
        rw [h2] at h
        simp only [Except.ok.injEq] at h
        subst h
        obtain ⟨block, k1, k2⟩ := block_effect (prog := prog) hf (inline := inline) (stacking := stacking) h1 (hr e (by simp) ds h1) (hn e (by simp))
        obtain ⟨blocks, m1, m2⟩ := ih dss' h2 (fun x hx => hr x (by simp [hx])) (fun x hx => hn x (by simp [hx]))
        refine ⟨block :: blocks, by simp [mapE, k1, m1, bind, Except.bind], ?_⟩
        intro a henv
        obtain ⟨b, es, b1, b2, b3, b4, b5⟩ := k2 a henv
        obtain ⟨c, es', c1, c2, c3, c4, c5⟩ := m2 b b2
        refine ⟨c, es ++ es', .cons b1 c1, c2, by rw [c3, b3], by rw [c4, b4, List.append_assoc], ?_⟩
        have : withItems items (e :: l) (ds :: dss') = ds.zipIdx.map (fun d => (d.1, items e.1 e.2 d.2)) ++ withItems items l dss' := by
          simp [withItems]
        rw [this]
        exact all2_append b5 c5

end FishReads
end CC
