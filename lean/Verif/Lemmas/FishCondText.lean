import Verif.Lemmas.FishReads
import Verif.Model.FishFile
import Verif.Spec.FishRun
/-!
# Lemmas: Fish reads the texts of conditions
-/

namespace CC
namespace FishReads
open FishCode

/-! ## In double quotes -/

/-- In double quotes, the text adds these pieces to the word. -/
def Dq (t : Str) (segs : List Seg) : Prop := ∀ w l o, run ⟨.dq, w, [], l, o⟩ t = some ⟨.dq, w ++ segs, [], l, o⟩

theorem dq_append {t u : Str} {a b : List Seg} (h1 : Dq t a) (h2 : Dq u b) : Dq (t ++ u) (a ++ b) := by
  intro w l o
  rw [run_append, h1, Option.bind_some, h2, List.append_assoc]

theorem dq_nil : Dq [] [] := by intro w l o; simp [run]

theorem dq_plain (t : Str) (h : ∀ c ∈ t, c ≠ '"' ∧ c ≠ '\\' ∧ c ≠ '$') : Dq t (t.map .ch) := by
  intro w l o
  induction t generalizing w with
  | nil => simp [run]
  | cons c cs ih =>
    obtain ⟨h1, h2, h3⟩ := h c (by simp)
    simp only [run, step, h1, h2, h3, if_false, Option.bind_some]
    rw [ih (fun x hx => h x (by simp [hx]))]
    simp

theorem dq_escaped (t : Str) (h : '`' ∉ t) : Dq (escapeInDouble t) (t.map .ch) := by
  intro w l o
  induction t generalizing w with
  | nil => simp [run, escapeInDouble]
  | cons c cs ih =>
    simp only [List.mem_cons, not_or] at h
    unfold escapeInDouble
    split
    · rename_i hc
      rcases hc with rfl | rfl | rfl | rfl
      · simp [run, step, ih h.2]
      · simp [run, step, ih h.2]
      · exact absurd rfl h.1
      · simp [run, step, ih h.2]
    · rename_i hc
      simp only [not_or] at hc
      simp only [run, step, hc.1, hc.2.1, hc.2.2.2, if_false, Option.bind_some]
      rw [ih h.2]
      simp

theorem run_dqName (n : Str) (h : ∀ c ∈ n, Fish.varChar c = true) (e : Str) (w : List Seg) (l : Stmt) (o : List Stmt) :
    run ⟨.dqName, w, e, l, o⟩ n = some ⟨.dqName, w, e ++ n, l, o⟩ := by
  induction n generalizing e with
  | nil => simp [run]
  | cons c cs ih =>
    simp only [run, step, h c (by simp), if_true, Option.bind_some]
    rw [ih (fun x hx => h x (by simp [hx]))]
    simp

theorem dq_name (n : Str) (hne : n ≠ []) (h : ∀ c ∈ n, Fish.varChar c = true) : Dq ('$' :: (n ++ [' '])) [.exp n, .ch ' '] := by
  intro w l o
  simp only [run, step]
  simp only [show (('$' : Char) = '"') = False by decide, show (('$' : Char) = '\\') = False by decide, if_false, if_true,
    Option.bind_some]
  rw [run_append, run_dqName n h, Option.bind_some]
  simp [run, step, Fish.varChar, hne]

theorem words_dq {t : Str} {segs : List Seg} (h : Dq t segs) : Words (inDouble t) [.word segs] := by
  apply words_of_word
  intro l o
  show run _ ('"' :: (t ++ ['"'])) = _
  simp only [run, step]
  simp only [show (('"' : Char) = ' ' ∨ ('"' : Char) = '\t') = False by decide, show (('"' : Char) = '\n' ∨ ('"' : Char) = ';') = False by decide,
    show (('"' : Char) = '\'') = False by decide, if_false, if_true, Option.bind_some]
  rw [run_append, h, Option.bind_some]
  simp [run, step]

/-! ## Expansion -/

theorem expand_append (vars : List (Str × Str)) (a b : List Seg) :
    FishRun.expand vars (a ++ b) = (FishRun.expand vars a).bind (fun x => (FishRun.expand vars b).map (x ++ ·)) := by
  induction a with
  | nil => simp [FishRun.expand]
  | cons s r ih =>
    cases s with
    | ch c =>
      simp only [List.cons_append, FishRun.expand, ih]
      cases FishRun.expand vars r <;> simp [Function.comp_def]
    | exp n =>
      simp only [List.cons_append, FishRun.expand, ih]
      cases FishRun.value vars n with
      | none => rfl
      | some v => cases FishRun.expand vars r <;> simp [Function.comp_def]
    | sub t => simp [FishRun.expand]

theorem expand_lit (vars : List (Str × Str)) (t : Str) : FishRun.expand vars (t.map .ch) = some t := by
  induction t with
  | nil => rfl
  | cons c cs ih => simp [FishRun.expand, ih]

theorem expand_add {vars : List (Str × Str)} {a b : List Seg} {x y : Str} (h1 : FishRun.expand vars a = some x)
    (h2 : FishRun.expand vars b = some y) : FishRun.expand vars (a ++ b) = some (x ++ y) := by
  rw [expand_append, h1, h2]; rfl

/-! ## The text of a condition command -/

theorem escape_append (a b : Str) : escapeInDouble (a ++ b) = escapeInDouble a ++ escapeInDouble b := by
  induction a with
  | nil => rfl
  | cons c cs ih =>
    simp only [List.cons_append, escapeInDouble]
    split <;> simp [ih]

theorem escape_joined : ∀ args : List Str, joinWith [' '] (args.map (fun a => escapeInDouble (quote a))) =
    escapeInDouble (joinQuoted args)
  | [] => rfl
  | [a] => by simp [joinQuoted, joinWith]
  | a :: b :: r => by
    have ih := escape_joined (b :: r)
    simp only [List.map_cons, joinWith, joinQuoted] at ih ⊢
    rw [ih, escape_append, escape_append]
    rfl

theorem replaceChar_backquote (x : Char) (y s : Str) (hy : '`' ∉ y) (h : '`' ∉ s) : '`' ∉ replaceChar x y s := by
  induction s with
  | nil => simp [replaceChar]
  | cons c cs ih =>
    simp only [List.mem_cons, not_or] at h
    unfold replaceChar
    split
    · simp only [List.mem_append, not_or]; exact ⟨hy, ih h.2⟩
    · simp only [List.mem_cons, not_or]; exact ⟨h.1, ih h.2⟩

theorem quote_backquote (s : Str) (h : '`' ∉ s) : '`' ∉ quote s := by
  unfold quote
  simp only [Bool.not_true, Bool.and_false, Bool.false_eq_true, if_false]
  have hd : '`' ∉ escapeDouble s := by
    induction s with
    | nil => simp [escapeDouble, replaceChar]
    | cons c cs ih =>
      simp only [List.mem_cons, not_or] at h
      rw [escapeDouble_cons, List.mem_append, not_or]
      refine ⟨?_, ih h.2⟩
      split <;> simp [h.1]
  split
  · exact h
  · split
    · simpa using h
    · split
      · simpa using hd
      · have := replaceChar_backquote '\'' ['\'', '"', '\'', '"', '\''] s (by decide) h
        simpa using this

theorem joined_backquote : ∀ args : List Str, (∀ a ∈ args, '`' ∉ a) → '`' ∉ joinQuoted args
  | [], _ => by simp [joinQuoted, joinWith]
  | [a], h => by simpa [joinQuoted, joinWith] using quote_backquote a (h a (by simp))
  | a :: b :: r, h => by
    have ih := joined_backquote (b :: r) (fun x hx => h x (by simp [hx]))
    have ha := quote_backquote a (h a (by simp))
    simp only [List.map_cons, joinWith, joinQuoted, List.mem_append, not_or] at ih ⊢
    exact ⟨⟨ha, by decide⟩, ih⟩

theorem variable_name (p : FishPrim) : p.variable ≠ [] ∧ ∀ c ∈ p.variable, Fish.varChar c = true := by
  have h : ∀ v ∈ [S "option_is", S "option_match", S "has_option", S "num_of_positionals", S "positional_contains"],
      v ≠ [] ∧ ∀ c ∈ v, Fish.varChar c = true := by decide +kernel
  apply h
  cases p with
  | prim q => cases q <;> simp [FishPrim.variable]
  | hidden os => simp [FishPrim.variable]

theorem dq_prim (p : FishPrim) (h : ∀ a ∈ p.args, '`' ∉ a) :
    Dq p.text ([.exp p.variable, .ch ' '] ++ (joinQuoted p.args).map .ch) := by
  obtain ⟨h1, h2⟩ := variable_name p
  have e : p.text = ('$' :: (p.variable ++ [' '])) ++ escapeInDouble (joinQuoted p.args) := by
    unfold FishPrim.text makeConditionCommand
    rw [escape_joined]; simp
  rw [e]
  exact dq_append (dq_name _ h1 h2) (dq_escaped _ (joined_backquote _ h))

/-! ## Tokens -/

open ShellGrammar (Tok)

/-- Operators stand behind commands, commands behind operators. -/
def alternates {α : Type} : Bool → List (Tok α) → Bool
  | s, [] => !s
  | true, .cmd _ :: r => alternates false r
  | true, .bang :: r => alternates true r
  | true, .lpar :: r => alternates true r
  | false, .and :: r => alternates true r
  | false, .or :: r => alternates true r
  | false, .rpar :: r => alternates false r
  | _, _ :: _ => false

theorem alternates_of_parse {α : Type} (ts : List (Tok α)) : ∀ (st : List (ShellGrammar.Frame α))
    (x : ShellGrammar.Frame α ⊕ ShellGrammar.Expr α) (e : ShellGrammar.Expr α), ShellGrammar.parseGo st x ts = some e →
    alternates (match x with | .inl _ => true | .inr _ => false) ts = true := by
  induction ts with
  | nil =>
    intro st x e h
    cases x with
    | inl f => cases st <;> simp [ShellGrammar.parseGo] at h
    | inr f => rfl
  | cons t r ih =>
    intro st x e h
    cases x with
    | inl f =>
      cases t <;> simp only [ShellGrammar.parseGo, alternates] at h ⊢ <;> first | exact ih _ _ _ h | (cases h)
    | inr f =>
      cases t with
      | and => simp only [ShellGrammar.parseGo, alternates] at h ⊢; exact ih _ _ _ h
      | or => simp only [ShellGrammar.parseGo, alternates] at h ⊢; exact ih _ _ _ h
      | rpar =>
        cases st with
        | nil => simp [ShellGrammar.parseGo] at h
        | cons g st => simp only [ShellGrammar.parseGo, alternates] at h ⊢; exact ih _ _ _ h
      | _ => simp [ShellGrammar.parseGo] at h

/-- The text of a token, when the variables have been replaced: `bang` is written in two ways. -/
inductive Piece (name : FishPrim → Str) : Tok FishPrim → Str → Prop
  | not : Piece name .bang (S "not")
  | bang : Piece name .bang (S "!")
  | lpar : Piece name .lpar (S "begin")
  | rpar : Piece name .rpar (S ";end")
  | and : Piece name .and (S "&&")
  | or : Piece name .or (S "||")
  | cmd (p : FishPrim) : Piece name (.cmd p) (name p ++ ' ' :: joinQuoted p.args)

/-- What the text adds. -/
def Moves (t : Str) (l : Stmt) (o : List Stmt) (l' : Stmt) (o' : List Stmt) : Prop :=
  ∃ st, run (between l o) t = some st ∧ rest st = some (between l' o') ∧ step st ' ' = some (between l' o')

theorem moves_space {t u : Str} {l l' l'' : Stmt} {o o' o'' : List Stmt} (h1 : Moves t l o l' o') (h2 : Moves u l' o' l'' o'') :
    Moves (t ++ ' ' :: u) l o l'' o'' := by
  obtain ⟨st, e1, e2, e3⟩ := h1
  obtain ⟨st', f1, f2, f3⟩ := h2
  refine ⟨st', ?_, f2, f3⟩
  rw [run_append, e1, Option.bind_some, run, e3, Option.bind_some, f1]

theorem moves_words {t : Str} {ts : List FishCode.Tok} (h : Words t ts) (l : Stmt) (o : List Stmt) : Moves t l o (l ++ ts) o := h l o

theorem moves_and {l : Stmt} {o : List Stmt} (h : endsInWord l = true) : Moves (S "&&") l o (l ++ [.and]) o := by
  refine ⟨between (l ++ [.and]) o, ?_, by simp [rest], by simp [step]⟩
  show run _ ['&', '&'] = _
  simp [run, step, operator, h, Fish.special]

theorem moves_or {l : Stmt} {o : List Stmt} (h : endsInWord l = true) : Moves (S "||") l o (l ++ [.or]) o := by
  refine ⟨between (l ++ [.or]) o, ?_, by simp [rest], by simp [step]⟩
  show run _ ['|', '|'] = _
  simp [run, step, operator, h, Fish.special]

theorem words_bang : Words (S "!") [lit (S "!")] := by
  apply words_of_word
  intro l o
  show run _ ['!'] = _
  simp [run, step, S]

theorem moves_end {l : Stmt} {o : List Stmt} (h : endsInWord l = true) : Moves (S ";end") l o [lit (S "end")] (o ++ [l]) := by
  have hne : l ≠ [] := by rintro rfl; cases h
  obtain ⟨st, h1, h2, h3⟩ := words_safe (S "end") (by decide) (by decide) [] (o ++ [l])
  refine ⟨st, ?_, h2, h3⟩
  show run _ (';' :: S "end") = _
  rw [run]
  have : step (between l o) ';' = some (between [] (o ++ [l])) := by simp [step, endLine, hne, h]
  rw [this, Option.bind_some, h1]

/-! ## What has been read -/

/-- The tokens of the start of a statement, and where it ends. -/
def scan : FishRun.Place → Stmt → Option (List (Tok (List Str)) × FishRun.Place)
  | p, [] => some ([], p)
  | .start, .word s :: r => do
    let w ← FishRun.literal s
    if w = "not".toList ∨ w = "!".toList then (fun x => (.bang :: x.1, x.2)) <$> scan .start r
    else if w = "begin".toList then (fun x => (.lpar :: x.1, x.2)) <$> scan .start r
    else if w = "end".toList then (fun x => (.rpar :: x.1, x.2)) <$> scan .closed r
    else scan (.command [w]) r
  | .command ws, .word s :: r => do scan (.command (ws ++ [← FishRun.literal s])) r
  | .command ws, .and :: r => (fun x => (.cmd ws :: .and :: x.1, x.2)) <$> scan .start r
  | .command ws, .or :: r => (fun x => (.cmd ws :: .or :: x.1, x.2)) <$> scan .start r
  | .closed, .and :: r => (fun x => (.and :: x.1, x.2)) <$> scan .start r
  | .closed, .or :: r => (fun x => (.or :: x.1, x.2)) <$> scan .start r
  | _, _ :: _ => none

/-- The end of a statement. -/
def scanEnd : FishRun.Place → Option (List (Tok (List Str)))
  | .start => none
  | .command ws => some [.cmd ws]
  | .closed => some []

theorem conditionStmt_scan (s : Stmt) : ∀ p, FishRun.conditionStmt p s =
    (scan p s).bind (fun x => (scanEnd x.2).map (x.1 ++ ·)) := by
  induction s with
  | nil => intro p; cases p <;> simp [FishRun.conditionStmt, scan, scanEnd]
  | cons t r ih =>
    intro p
    cases p with
    | start =>
      cases t with
      | word s =>
        simp only [FishRun.conditionStmt, scan]
        cases FishRun.literal s with
        | none => rfl
        | some w =>
          simp only [bind, Option.bind_some]
          repeat' split
          all_goals simp only [ih, Option.map_eq_map]
          all_goals (cases scan _ r with
            | none => rfl
            | some x => simp only [Option.map_some, Option.bind_some]; cases scanEnd x.2 <;> rfl)
      | pipe => rfl
      | and => rfl
      | or => rfl
    | command ws =>
      cases t with
      | word s =>
        simp only [FishRun.conditionStmt, scan]
        cases FishRun.literal s with
        | none => rfl
        | some w => simp only [bind, Option.bind_some, ih]
      | pipe => rfl
      | and | or =>
        simp only [FishRun.conditionStmt, scan, ih, Option.map_eq_map]
        cases scan _ r with
        | none => rfl
        | some x => simp only [Option.map_some, Option.bind_some]; cases scanEnd x.2 <;> rfl
    | closed =>
      cases t with
      | word s => rfl
      | pipe => rfl
      | and | or =>
        simp only [FishRun.conditionStmt, scan, ih, Option.map_eq_map]
        cases scan _ r with
        | none => rfl
        | some x => simp only [Option.map_some, Option.bind_some]; cases scanEnd x.2 <;> rfl

theorem scan_append (a b : Stmt) : ∀ p, scan p (a ++ b) = (scan p a).bind (fun x => (scan x.2 b).map (fun y => (x.1 ++ y.1, y.2))) := by
  induction a with
  | nil => intro p; simp only [List.nil_append, scan, Option.bind_some]; cases scan p b <;> simp
  | cons t r ih =>
    intro p
    cases p with
    | start =>
      cases t with
      | word s =>
        simp only [List.cons_append, scan]
        cases FishRun.literal s with
        | none => rfl
        | some w =>
          simp only [bind, Option.bind_some]
          repeat' split
          all_goals simp only [ih, Option.map_eq_map]
          all_goals (cases scan _ r with
            | none => rfl
            | some x => simp only [Option.map_some, Option.bind_some]; cases scan x.2 b <;> rfl)
      | pipe => rfl
      | and => rfl
      | or => rfl
    | command ws =>
      cases t with
      | word s =>
        simp only [List.cons_append, scan]
        cases FishRun.literal s with
        | none => rfl
        | some w => simp only [bind, Option.bind_some, ih]
      | pipe => rfl
      | and | or =>
        simp only [List.cons_append, scan, ih, Option.map_eq_map]
        cases scan _ r with
        | none => rfl
        | some x => simp only [Option.map_some, Option.bind_some]; cases scan x.2 b <;> rfl
    | closed =>
      cases t with
      | word s => rfl
      | pipe => rfl
      | and | or =>
        simp only [List.cons_append, scan, ih, Option.map_eq_map]
        cases scan _ r with
        | none => rfl
        | some x => simp only [Option.map_some, Option.bind_some]; cases scan x.2 b <;> rfl

theorem literal_map (w : Str) : FishRun.literal (w.map .ch) = some w := by
  induction w with
  | nil => rfl
  | cons c cs ih => simp [FishRun.literal, ih]

theorem scan_args (args : List Str) : ∀ ws, scan (.command ws) (call args) = some ([], .command (ws ++ args)) := by
  induction args with
  | nil => intro ws; simp [call, scan]
  | cons a r ih =>
    intro ws
    show scan _ (.word (a.map .ch) :: call r) = _
    simp only [scan, literal_map, bind, Option.bind_some, ih]
    simp

/-- The keywords. -/
def isKeyword (w : Str) : Prop := w = "not".toList ∨ w = "!".toList ∨ w = "begin".toList ∨ w = "end".toList

theorem scan_call (w : Str) (hw : ¬ isKeyword w) (args : List Str) :
    scan .start (call (w :: args)) = some ([], .command (w :: args)) := by
  simp only [isKeyword, not_or] at hw
  show scan _ (.word (w.map .ch) :: call args) = _
  simp only [scan, literal_map, bind, Option.bind_some, hw.1, hw.2.1, hw.2.2.1, hw.2.2.2, or_self, if_false, scan_args]
  rfl

/-- The tokens read so far, and where the text is. -/
def seen (l : Stmt) (o : List Stmt) : Option (List (Tok (List Str)) × FishRun.Place) :=
  (FishRun.conditionTokens o).bind (fun a => (scan .start l).map (fun x => (a ++ x.1, x.2)))

theorem conditionTokens_snoc (o : List Stmt) (l : Stmt) : FishRun.conditionTokens (o ++ [l]) =
    (FishRun.conditionTokens o).bind (fun a => (FishRun.conditionStmt .start l).map (a ++ ·)) := by
  induction o with
  | nil =>
    simp only [List.nil_append, FishRun.conditionTokens, Option.bind_some, bind]
    cases FishRun.conditionStmt .start l <;> simp
  | cons s r ih =>
    simp only [List.cons_append, FishRun.conditionTokens, ih, bind]
    cases FishRun.conditionStmt .start s with
    | none => rfl
    | some a =>
      cases FishRun.conditionTokens r with
      | none => rfl
      | some b => cases FishRun.conditionStmt .start l <;> simp

theorem conditionTokens_seen (o : List Stmt) (l : Stmt) : FishRun.conditionTokens (o ++ [l]) =
    (seen l o).bind (fun x => (scanEnd x.2).map (x.1 ++ ·)) := by
  rw [conditionTokens_snoc, conditionStmt_scan]
  unfold seen
  cases FishRun.conditionTokens o with
  | none => rfl
  | some a =>
    cases scan .start l with
    | none => rfl
    | some x =>
      simp only [Option.bind_some, Option.map_some]
      cases scanEnd x.2 <;> simp

theorem seen_add {l : Stmt} {o : List Stmt} {a : List (Tok (List Str))} {p q : FishRun.Place} {b : List (Tok (List Str))} {s : Stmt}
    (h : seen l o = some (a, p)) (hs : scan p s = some (b, q)) : seen (l ++ s) o = some (a ++ b, q) := by
  unfold seen at h ⊢
  cases h1 : FishRun.conditionTokens o with
  | none => rw [h1] at h; cases h
  | some x =>
    rw [h1] at h
    cases h2 : scan .start l with
    | none => rw [h2] at h; cases h
    | some y =>
      rw [h2] at h
      simp only [Option.bind_some, Option.map_some, Option.some.injEq, Prod.mk.injEq] at h
      obtain ⟨rfl, rfl⟩ := h
      rw [scan_append, h2]
      simp [hs]

/-- Where the text is: at the start of a command, or behind one. -/
def atStart : FishRun.Place → Bool
  | .start => true
  | _ => false

/-- The tokens with the words of the commands. -/
def withWords (name : FishPrim → Str) : Tok FishPrim → Tok (List Str)
  | .cmd p => .cmd (name p :: p.args)
  | .bang => .bang
  | .lpar => .lpar
  | .rpar => .rpar
  | .and => .and
  | .or => .or

theorem words_command (name : FishPrim → Str) (p : FishPrim) (hne : name p ≠ []) (hn : ∀ c ∈ name p, isSafeChar c = true)
    (ha : ∀ a ∈ p.args, fishReadable a = true) : Words (name p ++ ' ' :: joinQuoted p.args) (call (name p :: p.args)) := by
  have := words_space (words_safe (name p) hne hn) (words_joined p.args ha)
  exact this

/-- The text of tokens is read as these tokens. -/
theorem read_tokens (name : FishPrim → Str) (hn : ∀ p, name p ≠ [] ∧ (∀ c ∈ name p, isSafeChar c = true) ∧ ¬ isKeyword (name p)) :
    ∀ (ts : List (Tok FishPrim)) (us : List Str), All2 (Piece name) ts us → ts ≠ [] →
      (∀ p, .cmd p ∈ ts → ∀ a ∈ p.args, fishReadable a = true) →
      ∀ (l : Stmt) (o : List Stmt) (a : List (Tok (List Str))) (pl : FishRun.Place), seen l o = some (a, pl) →
      (atStart pl = false → endsInWord l = true) → alternates (atStart pl) ts = true →
      ∃ l' o' b pl', Moves (joinWith [' '] us) l o l' o' ∧ seen l' o' = some (b, pl') ∧ endsInWord l' = true ∧
        ∃ e, scanEnd pl' = some e ∧ ∀ e0, (scanEnd pl = some e0 ∨ (atStart pl = true ∧ e0 = [])) →
          b ++ e = a ++ e0 ++ ts.map (withWords name) := by
  intro ts us h
  induction h with
  | nil => intro h; exact absurd rfl h
  | @cons t u ts us hp hr ih =>
    intro _ hread l o a pl hseen hend halt
    -- one token
    have one : ∃ l1 o1 b1 pl1, Moves u l o l1 o1 ∧ seen l1 o1 = some (b1, pl1) ∧ (atStart pl1 = false → endsInWord l1 = true) ∧
        alternates (atStart pl1) ts = true ∧
        ∀ e0, (scanEnd pl = some e0 ∨ (atStart pl = true ∧ e0 = [])) →
          ∃ e1, (scanEnd pl1 = some e1 ∨ (atStart pl1 = true ∧ e1 = [])) ∧ b1 ++ e1 = a ++ e0 ++ [withWords name t] := by
      have hstart : ∀ {p : FishRun.Place}, atStart p = true → p = .start := by intro p; cases p <;> simp [atStart]
      have op : ∀ (k : FishCode.Tok) (t' : Tok (List Str)), (∀ ws, scan (.command ws) [k] = some ([.cmd ws, t'], .start)) →
          scan .closed [k] = some ([t'], .start) → atStart pl = false →
          ∃ b1, seen (l ++ [k]) o = some (b1, .start) ∧
            ∀ e0, (scanEnd pl = some e0 ∨ (atStart pl = true ∧ e0 = [])) → b1 ++ [] = a ++ e0 ++ [t'] := by
        intro k t' h1 h2 hs
        cases pl with
        | start => cases hs
        | command ws =>
          refine ⟨_, seen_add hseen (h1 ws), ?_⟩
          rintro e0 (h | ⟨h, -⟩)
          · simp only [scanEnd, Option.some.injEq] at h; subst h; simp
          · cases h
        | closed =>
          refine ⟨_, seen_add hseen h2, ?_⟩
          rintro e0 (h | ⟨h, -⟩)
          · simp only [scanEnd, Option.some.injEq] at h; subst h; simp
          · cases h
      have key : ∀ (w : Str) (t' : Tok (List Str)) (p : FishRun.Place), Words w [lit w] → scan .start [lit w] = some ([t'], p) → atStart pl = true →
          ∃ b1, Moves w l o (l ++ [lit w]) o ∧ seen (l ++ [lit w]) o = some (b1, p) ∧
            ∀ e0, (scanEnd pl = some e0 ∨ (atStart pl = true ∧ e0 = [])) → b1 ++ [] = a ++ e0 ++ [t'] := by
        intro w t' p hw hs h
        have := hstart h; subst this
        refine ⟨_, moves_words hw l o, seen_add hseen hs, ?_⟩
        rintro e0 (h | ⟨-, rfl⟩)
        · cases h
        · simp
      cases hp with
      | not =>
        cases hs : atStart pl with
        | false => rw [hs] at halt; cases halt
        | true =>
          rw [hs] at halt
          obtain ⟨b1, h1, h2, h3⟩ := key (S "not") .bang .start (words_safe _ (by decide) (by decide)) rfl hs
          rw [hs] at h3
          exact ⟨_, _, b1, .start, h1, h2, by simp [atStart], halt, fun e0 he => ⟨[], Or.inr ⟨rfl, rfl⟩, h3 e0 he⟩⟩
      | bang =>
        cases hs : atStart pl with
        | false => rw [hs] at halt; cases halt
        | true =>
          rw [hs] at halt
          obtain ⟨b1, h1, h2, h3⟩ := key (S "!") .bang .start words_bang rfl hs
          rw [hs] at h3
          exact ⟨_, _, b1, .start, h1, h2, by simp [atStart], halt, fun e0 he => ⟨[], Or.inr ⟨rfl, rfl⟩, h3 e0 he⟩⟩
      | lpar =>
        cases hs : atStart pl with
        | false => rw [hs] at halt; cases halt
        | true =>
          rw [hs] at halt
          obtain ⟨b1, h1, h2, h3⟩ := key (S "begin") .lpar .start (words_safe _ (by decide) (by decide)) rfl hs
          rw [hs] at h3
          exact ⟨_, _, b1, .start, h1, h2, by simp [atStart], halt, fun e0 he => ⟨[], Or.inr ⟨rfl, rfl⟩, h3 e0 he⟩⟩
      | rpar =>
        cases hs : atStart pl with
        | true => rw [hs] at halt; cases halt
        | false =>
          rw [hs] at halt
          have hl := hend hs
          have hs' : ∃ e, scanEnd pl = some e := by
            cases pl with
            | start => cases hs
            | command ws => exact ⟨_, rfl⟩
            | closed => exact ⟨_, rfl⟩
          obtain ⟨e, he⟩ := hs'
          have hc : FishRun.conditionTokens (o ++ [l]) = some (a ++ e) := by
            rw [conditionTokens_seen, hseen]; simp [he]
          refine ⟨_, _, a ++ e ++ [.rpar], .closed, moves_end hl, ?_, fun _ => by decide, halt, ?_⟩
          · unfold seen
            rw [hc]
            rfl
          · rintro e0 (h | ⟨h, -⟩)
            · rw [he] at h; cases h
              exact ⟨[], Or.inl rfl, by simp [withWords]⟩
            · cases h
      | and =>
        cases hs : atStart pl with
        | true => rw [hs] at halt; cases halt
        | false =>
          rw [hs] at halt
          obtain ⟨b1, h2, h3⟩ := op .and .and (fun ws => rfl) rfl hs
          rw [hs] at h3
          exact ⟨_, _, b1, .start, moves_and (hend hs), h2, by simp [atStart], halt, fun e0 he => ⟨[], Or.inr ⟨rfl, rfl⟩, h3 e0 he⟩⟩
      | or =>
        cases hs : atStart pl with
        | true => rw [hs] at halt; cases halt
        | false =>
          rw [hs] at halt
          obtain ⟨b1, h2, h3⟩ := op .or .or (fun ws => rfl) rfl hs
          rw [hs] at h3
          exact ⟨_, _, b1, .start, moves_or (hend hs), h2, by simp [atStart], halt, fun e0 he => ⟨[], Or.inr ⟨rfl, rfl⟩, h3 e0 he⟩⟩
      | cmd p =>
        cases hs : atStart pl with
        | false => rw [hs] at halt; cases halt
        | true =>
          rw [hs] at halt
          have := hstart hs; subst this
          obtain ⟨n1, n2, n3⟩ := hn p
          have hw := words_command name p n1 n2 (hread p (by simp))
          refine ⟨_, _, _, _, moves_words hw l o, seen_add hseen (scan_call (name p) n3 p.args), ?_, halt, ?_⟩
          · intro _
            have hne : name p :: p.args ≠ [] := by simp
            rcases List.eq_nil_or_concat (name p :: p.args) with h | ⟨r, c, h⟩
            · exact absurd h hne
            · rw [h]
              simp only [call, List.concat_eq_append, List.map_append, List.map_cons, List.map_nil]
              rw [← List.append_assoc]
              exact endsInWord_append _ _
          · rintro e0 (h | ⟨-, rfl⟩)
            · cases h
            · exact ⟨[.cmd (name p :: p.args)], Or.inl rfl, by simp [withWords]⟩
    obtain ⟨l1, o1, b1, pl1, m1, s1, end1, alt1, eq1⟩ := one
    cases hr with
    | nil =>
      have hp1 : atStart pl1 = false := by
        cases h : atStart pl1 with
        | false => rfl
        | true => rw [h] at alt1; cases alt1
      have : ∃ e, scanEnd pl1 = some e := by
        cases pl1 with
        | start => cases hp1
        | command ws => exact ⟨_, rfl⟩
        | closed => exact ⟨_, rfl⟩
      obtain ⟨e, he⟩ := this
      refine ⟨l1, o1, b1, pl1, by simpa [joinWith] using m1, s1, end1 hp1, e, he, ?_⟩
      intro e0 h0
      obtain ⟨e1, h1, h2⟩ := eq1 e0 h0
      rcases h1 with h1 | ⟨h1, -⟩
      · rw [he] at h1; cases h1; simpa using h2
      · rw [hp1] at h1; cases h1
    | cons hp' hr' =>
      obtain ⟨l', o', b, pl', m2, s2, end2, e, he, heq⟩ := ih (by simp) (fun p hp => hread p (by simp [hp])) l1 o1 b1 pl1 s1 end1 alt1
      refine ⟨l', o', b, pl', ?_, s2, end2, e, he, ?_⟩
      · have := moves_space m1 m2
        simpa [joinWith] using this
      · intro e0 h0
        obtain ⟨e1, h1, h2⟩ := eq1 e0 h0
        rw [heq e1 h1, h2]
        simp

end FishReads
end CC
