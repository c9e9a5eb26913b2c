import Verif.Lemmas.FishCondText
import Verif.Lemmas.Grammar
import Verif.Props.FishUtils
/-!
# Lemmas: what Fish does with the lines of a script
-/

namespace CC
namespace FishReads
open FishCode
open ShellGrammar (Tok Expr Frame parseGo parse)

/-! ## Replacing the commands of a condition -/

/-- The expression with other commands. -/
def mapExpr {α β : Type} (f : α → β) : Expr α → Expr β
  | .atom a => .atom (f a)
  | .not e => .not (mapExpr f e)
  | .and e g => .and (mapExpr f e) (mapExpr f g)
  | .or e g => .or (mapExpr f e) (mapExpr f g)

theorem eval_mapExpr {α β : Type} (f : α → β) (v : β → Bool) (e : Expr α) :
    (mapExpr f e).eval v = e.eval (fun a => v (f a)) := by
  induction e with
  | atom a => rfl
  | not e ih => simp [mapExpr, Expr.eval, ih]
  | and e g ih1 ih2 => simp [mapExpr, Expr.eval, ih1, ih2]
  | or e g ih1 ih2 => simp [mapExpr, Expr.eval, ih1, ih2]

/-- The same for a frame. -/
def mapFrame {α β : Type} (f : α → β) (fr : Frame α) : Frame β := ⟨fr.left.map (fun x => (mapExpr f x.1, x.2)), fr.bangs⟩

/-- The same for the state of the reader. -/
def mapState {α β : Type} (f : α → β) : Frame α ⊕ Expr α → Frame β ⊕ Expr β
  | .inl fr => .inl (mapFrame f fr)
  | .inr e => .inr (mapExpr f e)

theorem negate_mapExpr {α β : Type} (f : α → β) (n : Nat) (e : Expr α) :
    ShellGrammar.negate n (mapExpr f e) = mapExpr f (ShellGrammar.negate n e) := by
  induction n with
  | zero => rfl
  | succ n ih => simp [ShellGrammar.negate, ih, mapExpr]

theorem close_map {α β : Type} (f : α → β) (fr : Frame α) (e : Expr α) :
    (mapFrame f fr).close (mapExpr f e) = mapExpr f (fr.close e) := by
  obtain ⟨l, n⟩ := fr
  unfold Frame.close mapFrame
  rcases l with _ | ⟨l, b⟩
  · exact negate_mapExpr f n e
  · cases b <;> simp [negate_mapExpr, mapExpr]

/-- The same for a token. -/
def mapTok {α β : Type} (f : α → β) : Tok α → Tok β
  | .cmd p => .cmd (f p)
  | .bang => .bang
  | .lpar => .lpar
  | .rpar => .rpar
  | .and => .and
  | .or => .or

theorem parseGo_map {α β : Type} (f : α → β) (ts : List (Tok α)) : ∀ (st : List (Frame α)) (x : Frame α ⊕ Expr α),
    parseGo (st.map (mapFrame f)) (mapState f x) (ts.map (mapTok f)) = (parseGo st x ts).map (mapExpr f) := by
  induction ts with
  | nil =>
    intro st x
    cases x with
    | inl f => cases st <;> simp [parseGo, mapState]
    | inr e => cases st <;> simp [parseGo, mapState]
  | cons t r ih =>
    intro st x
    cases x with
    | inl f =>
      cases t with
      | cmd p =>
        simp only [List.map_cons, mapTok, mapState, parseGo]
        rw [← ih, mapState, ← close_map]; rfl
      | bang =>
        simp only [List.map_cons, mapTok, mapState, parseGo]
        rw [← ih]; rfl
      | lpar =>
        simp only [List.map_cons, mapTok, mapState, parseGo]
        rw [← ih]; rfl
      | _ => simp [mapTok, mapState, parseGo]
    | inr e =>
      cases t with
      | and =>
        simp only [List.map_cons, mapTok, mapState, parseGo]
        rw [← ih]; rfl
      | or =>
        simp only [List.map_cons, mapTok, mapState, parseGo]
        rw [← ih]; rfl
      | rpar =>
        cases st with
        | nil => simp [mapTok, mapState, parseGo]
        | cons g st =>
          simp only [List.map_cons, mapTok, mapState, parseGo]
          rw [← ih, mapState, ← close_map]
      | _ => simp [mapTok, mapState, parseGo]

theorem run_map {α β : Type} (f : α → β) (v : β → Bool) (ts : List (Tok α)) :
    ShellGrammar.run v (ts.map (mapTok f)) = ShellGrammar.run (fun p => v (f p)) ts := by
  have := parseGo_map f ts [] (.inl ⟨none, 0⟩)
  unfold ShellGrammar.run parse
  rw [show (parseGo [] (.inl ⟨none, 0⟩) (ts.map (mapTok f))) = _ from this, Option.map_map]
  congr 1
  funext e
  exact eval_mapExpr _ v e

theorem run_withWords (name : FishPrim → Str) (v : List Str → Bool) (ts : List (Tok FishPrim)) :
    ShellGrammar.run v (ts.map (withWords name)) = ShellGrammar.run (fun p => v (name p :: p.args)) ts := by
  rw [← run_map (fun p : FishPrim => name p :: p.args) v ts]
  congr 1
  apply List.map_congr_left
  intro t _
  cases t <;> rfl

/-- Only the answers of the commands that occur count. -/
theorem run_congr {α : Type} {v w : α → Bool} {ts : List (Tok α)} (h : ∀ a, .cmd a ∈ ts → v a = w a) :
    ShellGrammar.run v ts = ShellGrammar.run w ts := by
  have h1 := run_map v id ts
  have h2 := run_map w id ts
  have : ts.map (mapTok v) = ts.map (mapTok w) := by
    apply List.map_congr_left
    intro t ht
    cases t <;> first | rfl | exact congrArg _ (h _ ht)
  rw [this, h2] at h1
  exact h1.symm

/-! ## A condition of a `complete` command -/

/-- The names of the condition commands can be written without quotes and are no keywords. -/
def GoodName (name : FishPrim → Str) : Prop :=
  ∀ p, name p ≠ [] ∧ (∀ c ∈ name p, isSafeChar c = true) ∧ ¬ isKeyword (name p)

/-- The texts of the tokens, joined, are the text of the condition. -/
def CondText (name : FishPrim → Str) (ts : List (Tok FishPrim)) (x : Str) : Prop :=
  ∃ us, x = joinWith [' '] us ∧ All2 (Piece name) ts us

/-- The arguments can be written. -/
def PrimReads (p : FishPrim) : Prop := ∀ a ∈ p.args, fishReadable a = true ∧ '`' ∉ a

theorem succeeds_iff {name : FishPrim → Str} (hn : GoodName name) {ts : List (Tok FishPrim)} {x : Str} (hx : CondText name ts x)
    (hr : ∀ p, .cmd p ∈ ts → PrimReads p) (ha : alternates true ts = true) (v : List Str → Bool) :
    FishRun.Succeeds v x ↔ ShellGrammar.run (fun p => v (name p :: p.args)) ts = some true := by
  obtain ⟨us, rfl, hp⟩ := hx
  have hne : ts ≠ [] := by rintro rfl; cases ha
  obtain ⟨l', o', b, pl', m, hs, he, e, h1, h2⟩ := read_tokens name hn ts us hp hne (fun p hp a ha => (hr p hp a ha).1)
    [] [] [] .start rfl (by simp [atStart]) ha
  have h3 := h2 [] (Or.inr ⟨rfl, rfl⟩)
  obtain ⟨st, m1, m2, -⟩ := m
  have hl : l' ≠ [] := by rintro rfl; cases he
  have hread : FishCode.read (joinWith [' '] us) = some (o' ++ [l']) := by
    unfold FishCode.read
    rw [show ({} : State) = between [] [] from rfl, m1, Option.bind_some, m2, Option.bind_some]
    simp [endLine, hl, he]
  have htok : FishRun.conditionTokens (o' ++ [l']) = some (ts.map (withWords name)) := by
    rw [conditionTokens_seen, hs]
    simp only [Option.bind_some, h1, Option.map_some]
    rw [h3]; simp
  unfold FishRun.Succeeds
  rw [← run_withWords]
  constructor
  · rintro ⟨ss, us', h4, h5, h6⟩
    rw [hread] at h4; cases h4
    rw [htok] at h5; cases h5
    exact h6
  · intro h
    exact ⟨_, _, hread, htok, h⟩

/-! ## The texts of conditions -/

/-- In double quotes, the text stands for this one. -/
def DqText (vars : List (Str × Str)) (t x : Str) : Prop := ∃ segs, Dq t segs ∧ FishRun.expand vars segs = some x

theorem dqText_plain (vars : List (Str × Str)) (t : Str) (h : ∀ c ∈ t, c ≠ '"' ∧ c ≠ '\\' ∧ c ≠ '$') : DqText vars t t :=
  ⟨_, dq_plain t h, expand_lit vars t⟩

theorem dqText_append {vars : List (Str × Str)} {t u x y : Str} (h1 : DqText vars t x) (h2 : DqText vars u y) :
    DqText vars (t ++ u) (x ++ y) := by
  obtain ⟨a, a1, a2⟩ := h1
  obtain ⟨b, b1, b2⟩ := h2
  exact ⟨_, dq_append a1 b1, expand_add a2 b2⟩

theorem dqText_prim {vars : List (Str × Str)} {name : FishPrim → Str} (p : FishPrim) (hr : PrimReads p)
    (hv : FishRun.value vars p.variable = some (name p)) : DqText vars p.text (name p ++ ' ' :: joinQuoted p.args) := by
  refine ⟨_, dq_prim p (fun a ha => (hr a ha).2), ?_⟩
  have : FishRun.expand vars ([.exp p.variable, .ch ' '] : List Seg) = some (name p ++ [' ']) := by
    simp [FishRun.expand, hv]
  rw [expand_add this (expand_lit vars _)]
  simp

theorem joinWith_cons {sep : Str} {u : Str} {us : List Str} (h : us ≠ []) : joinWith sep (u :: us) = u ++ sep ++ joinWith sep us := by
  cases us with
  | nil => exact absurd rfl h
  | cons v r => rfl

theorem all2_ne {α β : Type} {R : α → β → Prop} {as : List α} {bs : List β} (h : All2 R as bs) (hne : as ≠ []) : bs ≠ [] := by
  cases h with
  | nil => exact absurd rfl hne
  | cons _ _ => simp

theorem code_ne (c : FishCond) : c.code ≠ [] := by cases c <;> simp [FishCond.code]

theorem cond_text {vars : List (Str × Str)} {name : FishPrim → Str} (c : FishCond)
    (hr : ∀ p, .cmd p ∈ c.code → PrimReads p ∧ FishRun.value vars p.variable = some (name p)) :
    ∃ x, DqText vars c.text x ∧ CondText name c.code x := by
  induction c with
  | prim p =>
    obtain ⟨h1, h2⟩ := hr (.prim p) (by simp [FishCond.code])
    exact ⟨_, dqText_prim (.prim p) h1 h2, [_], rfl, .cons (.cmd _) .nil⟩
  | hidden os =>
    obtain ⟨h1, h2⟩ := hr (.hidden os) (by simp [FishCond.code])
    exact ⟨_, dqText_prim (.hidden os) h1 h2, [_], rfl, .cons (.cmd _) .nil⟩
  | not c ih =>
    obtain ⟨x, h1, us, rfl, h2⟩ := ih (fun p hp => hr p (by simp [FishCond.code, hp]))
    refine ⟨_, dqText_append (dqText_plain vars (S "not ") (by decide)) h1, S "not" :: us, ?_, .cons .not h2⟩
    rw [joinWith_cons (all2_ne h2 (code_ne c))]
    rfl

theorem when_text {vars : List (Str × Str)} {name : FishPrim → Str} (ts : List (Tok FishPrim))
    (hr : ∀ p, .cmd p ∈ ts → PrimReads p ∧ FishRun.value vars p.variable = some (name p)) :
    ∃ x, DqText vars (joinWith [' '] (ts.map whenPiece)) x ∧ CondText name ts x := by
  induction ts with
  | nil => exact ⟨[], dqText_plain vars [] (by simp), [], rfl, .nil⟩
  | cons t r ih =>
    obtain ⟨x, h1, us, rfl, h2⟩ := ih (fun p hp => hr p (by simp [hp]))
    have one : ∃ u, DqText vars (whenPiece t) u ∧ Piece name t u := by
      cases t with
      | lpar => exact ⟨_, dqText_plain vars (S "begin") (by decide), .lpar⟩
      | rpar => exact ⟨_, dqText_plain vars (S ";end") (by decide), .rpar⟩
      | bang => exact ⟨_, dqText_plain vars (S "!") (by decide), .bang⟩
      | and => exact ⟨_, dqText_plain vars (S "&&") (by decide), .and⟩
      | or => exact ⟨_, dqText_plain vars (S "||") (by decide), .or⟩
      | cmd p =>
        obtain ⟨a, b⟩ := hr p (by simp)
        exact ⟨_, dqText_prim p a b, .cmd p⟩
    obtain ⟨u, h3, h4⟩ := one
    cases r with
    | nil =>
      cases h2
      exact ⟨u, by simpa [joinWith] using h3, [u], rfl, .cons h4 .nil⟩
    | cons t' r' =>
      refine ⟨_, ?_, u :: us, rfl, .cons h4 h2⟩
      rw [joinWith_cons (all2_ne h2 (by simp)), List.map_cons, joinWith_cons (by simp), List.append_assoc, List.append_assoc]
      exact dqText_append h3 (dqText_append (dqText_plain vars [' '] (by decide)) h1)

/-! ## Words -/

/-- The text is one word, which stands for `x`. -/
def Reads (vars : List (Str × Str)) (t x : Str) : Prop := ∃ segs, Words t [.word segs] ∧ FishRun.expand vars segs = some x

theorem reads_quote (vars : List (Str × Str)) (s : Str) (h : fishReadable s = true) : Reads vars (quote s) s :=
  ⟨_, words_quote s h, expand_lit vars s⟩

theorem reads_safe (vars : List (Str × Str)) (s : Str) (hne : s ≠ []) (h : ∀ c ∈ s, isSafeChar c = true) : Reads vars s s :=
  ⟨_, words_safe s hne h, expand_lit vars s⟩

theorem reads_dq {vars : List (Str × Str)} {t x : Str} (h : DqText vars t x) : Reads vars (inDouble t) x := by
  obtain ⟨segs, h1, h2⟩ := h
  exact ⟨segs, words_dq h1, h2⟩

theorem reads_name {vars : List (Str × Str)} {n x : Str} (hne : n ≠ []) (h : ∀ c ∈ n, Fish.varChar c = true)
    (hv : FishRun.value vars n = some x) : Reads vars ('$' :: n) x :=
  ⟨_, words_name n hne h, by simp [FishRun.expand, hv]⟩

theorem reads_sq (vars : List (Str × Str)) (s : Str) (h1 : '\'' ∉ s) (h2 : backslashHarmless s = true) :
    Reads vars (S "'" ++ s ++ S "'") s := by
  refine ⟨s.map .ch, words_of_word (fun l o => ?_), expand_lit vars s⟩
  have e : replaceChar '\'' ['\'', '"', '\'', '"', '\''] s = s := by
    clear h2
    induction s with
    | nil => rfl
    | cons c cs ih =>
      simp only [List.mem_cons, not_or] at h1
      have : ¬ c = '\'' := fun e => h1.1 e.symm
      simp [replaceChar, this, ih h1.2]
  have := run_sq s h2 [] [] l o
  rw [e] at this
  show run _ ('\'' :: (s ++ ['\''])) = _
  simp only [run, step]
  simpa using this

/-- The words of a line. -/
theorem reads_line {vars : List (Str × Str)} : ∀ {ts xs : List Str}, All2 (Reads vars) ts xs → ts ≠ [] →
    ∃ s, Words (joinWith [' '] ts) s ∧ endsInWord s = true ∧ FishRun.wordsOf vars s = some xs
  | _, _, .nil, h => absurd rfl h
  | _, _, .cons (a := t) (b := x) ⟨segs, h1, h2⟩ .nil, _ =>
    ⟨_, by simpa [joinWith] using h1, rfl, by simp [FishRun.wordsOf, h2]⟩
  | _, _, .cons (a := t) (b := x) ⟨segs, h1, h2⟩ (.cons h' r), _ => by
    obtain ⟨s, w1, w2, w3⟩ := reads_line (.cons h' r) (by simp)
    refine ⟨[.word segs] ++ s, ?_, ?_, ?_⟩
    · have := words_space h1 w1
      rw [joinWith_cons (by simp)]
      simpa using this
    · cases s with
      | nil => cases w2
      | cons k s => simpa [endsInWord] using w2
    · show FishRun.wordsOf vars (.word segs :: s) = _
      simp [FishRun.wordsOf, h2, w3]

/-! ## What a text does -/

/-- Running the text leads from one state to the other. -/
def Effect (t : Str) (a b : FishRun.State) : Prop := ∃ ss, Stmts t ss ∧ FishRun.exec a ss = some b

theorem exec_append (ss ss' : List Stmt) : ∀ a, FishRun.exec a (ss ++ ss') = (FishRun.exec a ss).bind (fun b => FishRun.exec b ss') := by
  induction ss with
  | nil => intro a; rfl
  | cons s r ih =>
    intro a
    simp only [List.cons_append, FishRun.exec]
    cases FishRun.exec1 a s with
    | none => rfl
    | some b => simp [ih]

theorem effect_nil (a : FishRun.State) : Effect [] a a := ⟨[], stmts_nil, rfl⟩

theorem effect_line {t u : Str} {a b c : FishRun.State} (h1 : Effect t a b) (h2 : Effect u b c) : Effect (t ++ '\n' :: u) a c := by
  obtain ⟨s1, e1, f1⟩ := h1
  obtain ⟨s2, e2, f2⟩ := h2
  exact ⟨_, stmts_line e1 e2, by rw [exec_append, f1, Option.bind_some, f2]⟩

theorem effect_comment {t u : Str} {a b : FishRun.State} (ht : '\n' ∉ t) (h : Effect u a b) : Effect ('#' :: t ++ '\n' :: u) a b := by
  obtain ⟨s, e, f⟩ := h
  refine ⟨s, fun o => ?_, f⟩
  obtain ⟨st, st', e1, e2, e3⟩ := e o
  refine ⟨st, st', ?_, e2, e3⟩
  have key : ∀ (t : Str), '\n' ∉ t → ∀ w e, run ⟨.comment, w, e, [], o⟩ (t ++ '\n' :: u) = run (between [] o) u := by
    intro t
    induction t with
    | nil => intro _ w e; simp [run, step, endLine]
    | cons c cs ih =>
      intro h w e
      simp only [List.mem_cons, not_or] at h
      have : ¬ c = '\n' := fun e => h.1 e.symm
      simp only [List.cons_append, run, step, this, if_false, Option.bind_some]
      exact ih h.2 w e
  show run _ ('#' :: (t ++ '\n' :: u)) = _
  rw [← e1, ← key t ht [] []]
  simp [run, step]

theorem effect_words {ts xs : List Str} {a b : FishRun.State} (h : All2 (Reads a.vars) ts xs) (hne : ts ≠ [])
    (hb : ∀ s, FishRun.wordsOf a.vars s = some xs → FishRun.exec1 a s = some b) : Effect (joinWith [' '] ts) a b := by
  obtain ⟨s, h1, h2, h3⟩ := reads_line h hne
  exact ⟨[s], stmts_of_words h1 h2, by simp [FishRun.exec, hb s h3]⟩

theorem effect_set {v t x : Str} {a : FishRun.State} (hv : v ≠ []) (hs : ∀ c ∈ v, isSafeChar c = true) (ht : Reads a.vars t x) :
    Effect (S "set -l " ++ v ++ [' '] ++ t) a { a with vars := (v, x) :: a.vars } := by
  have : S "set -l " ++ v ++ [' '] ++ t = joinWith [' '] [S "set", S "-l", v, t] := by
    simp only [joinWith, S]
    simp
  rw [this]
  refine effect_words (xs := [S "set", S "-l", v, x]) ?_ (by simp) ?_
  · exact .cons (reads_safe _ _ (by decide) (by decide)) (.cons (reads_safe _ _ (by decide) (by decide))
      (.cons (reads_safe _ _ hv hs) (.cons ht .nil)))
  · intro s h
    simp only [FishRun.exec1, h, bind, Option.bind_some]
    rfl

theorem effect_complete {ts xs : List Str} {a b : FishRun.State} (h : All2 (Reads a.vars) ts xs)
    (hb : FishRun.complete a xs = some b) : Effect (joinWith [' '] (S "complete" :: ts)) a b := by
  refine effect_words (xs := S "complete" :: xs) (.cons (reads_safe _ _ (by decide) (by decide)) h) (by simp) ?_
  intro s hs
  simp only [FishRun.exec1, hs, bind, Option.bind_some]
  have hne : ¬ (S "complete" = "set".toList) := by decide
  split
  · rename_i heq
    simp only [List.cons.injEq] at heq
    obtain ⟨rfl, rfl⟩ := heq
    rw [if_neg (fun h => hne h.1)]
    rw [if_pos (show S "complete" = "complete".toList from rfl)]; exact hb
  · rename_i heq
    simp only [List.cons.injEq] at heq
    obtain ⟨rfl, rfl⟩ := heq
    rw [if_pos (show S "complete" = "complete".toList from rfl)]; exact hb
  · rename_i heq; cases heq

/-- Lines, one after the other. -/
inductive Effects : List Str → FishRun.State → FishRun.State → Prop
  | nil (a) : Effects [] a a
  | cons {t ts a b c} : Effect t a b → Effects ts b c → Effects (t :: ts) a c
  | comment {t ts a b} : '\n' ∉ t → ts ≠ [] → Effects ts a b → Effects (('#' :: t) :: ts) a b

theorem effects_append {ts us : List Str} {a b c : FishRun.State} (h1 : Effects ts a b) (h2 : Effects us b c) :
    Effects (ts ++ us) a c := by
  induction h1 with
  | nil a => exact h2
  | cons h _ ih => exact .cons h (ih h2)
  | comment hn hne _ ih => exact .comment hn (by simp [hne]) (ih h2)

theorem Effects.joined {ts : List Str} {a b : FishRun.State} (h : Effects ts a b) : Effect (joinWith ['\n'] ts) a b := by
  induction h with
  | nil a => exact effect_nil a
  | @cons t ts a b c h hr ih =>
    cases ts with
    | nil => cases hr; simpa [joinWith] using h
    | cons u us =>
      rw [joinWith_cons (by simp)]
      simpa using effect_line h ih
  | @comment t ts a b hn hne hr ih =>
    rw [joinWith_cons hne]
    simpa using effect_comment hn ih

/-- Blocks, one after the other; empty ones are left out. -/
inductive Blocks : List Str → FishRun.State → FishRun.State → Prop
  | nil (a) : Blocks [] a a
  | cons {t ts a b c} : Effect t a b → Blocks ts b c → Blocks (t :: ts) a c

theorem blocks_append {ts us : List Str} {a b c : FishRun.State} (h1 : Blocks ts a b) (h2 : Blocks us b c) :
    Blocks (ts ++ us) a c := by
  induction h1 with
  | nil a => exact h2
  | cons h _ ih => exact .cons h (ih h2)

theorem effect_empty {a b : FishRun.State} (h : Effect [] a b) : a = b := by
  obtain ⟨ss, h1, h2⟩ := h
  have := h1.read
  have e : ss = [] := by
    have h3 : FishCode.read [] = some [] := rfl
    rw [h3] at this
    exact (Option.some.inj this).symm
  subst e
  simpa [FishRun.exec] using h2

theorem Blocks.output {ts : List Str} {a b : FishRun.State} (h : Blocks ts a b) : Effect (outputGet ts) a b := by
  unfold outputGet
  have : Blocks (ts.filter (fun s => !s.isEmpty)) a b := by
    induction h with
    | nil a => exact .nil a
    | @cons t ts a b c h _ ih =>
      cases t with
      | nil => have := effect_empty h; subst this; simpa using ih
      | cons x xs => exact .cons h ih
  clear h
  generalize ts.filter (fun s => !s.isEmpty) = us at this
  induction this with
  | nil a => exact effect_nil a
  | @cons t ts a b c h hr ih =>
    cases ts with
    | nil => cases hr; simpa [joinWith] using h
    | cons u us =>
      rw [joinWith_cons (by simp)]
      have := effect_line h (effect_line (effect_nil _) (ih))
      simpa using this

theorem Effect.script {t : Str} {a b : FishRun.State} (h : Effect t a b) : FishRun.runScript a t = some b := by
  obtain ⟨ss, h1, h2⟩ := h
  rw [FishRun.runScript, h1.read]
  exact h2

end FishReads
end CC
