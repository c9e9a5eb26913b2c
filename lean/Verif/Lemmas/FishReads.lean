import Verif.Spec.FishCompleterSpec
import Verif.Model.FishComplete
import Verif.Lemmas.ZshEach
/-!
# Lemmas about reading code in Fish
-/

namespace CC
namespace FishReads
open FishCode

theorem run_append (st : State) (a b : Str) : run st (a ++ b) = (run st a).bind (fun st => run st b) := by
  induction a generalizing st with
  | nil => rfl
  | cons c cs ih =>
    simp only [List.cons_append, run]
    cases step st c with
    | none => rfl
    | some st' => simp [ih]

/-! ## Quoted words -/

theorem fish_plain {c : Char} (h : isSafeChar c = true) : c ≠ ' ' ∧ c ≠ '\t' ∧ c ≠ '\n' ∧ c ≠ ';' ∧ c ≠ '\'' ∧ c ≠ '"' ∧
    c ≠ '\\' ∧ c ≠ '$' ∧ c ≠ '(' ∧ c ≠ '|' ∧ c ≠ '&' ∧ Fish.special.contains c = false := by
  refine ⟨?_, ?_, ?_, ?_, ?_, ?_, ?_, ?_, ?_, ?_, ?_, (fish_safe h).2.2.2.2⟩ <;> rintro rfl <;> revert h <;> decide

theorem run_word_safe (s : Str) (h : ∀ c ∈ s, isSafeChar c = true) (w : List Seg) (e : Str) (l : Stmt) (o : List Stmt) :
    run ⟨.word, w, e, l, o⟩ s = some ⟨.word, w ++ s.map .ch, e, l, o⟩ := by
  induction s generalizing w with
  | nil => simp [run]
  | cons c cs ih =>
    obtain ⟨h1, h2, h3, h4, h5, h6, h7, h8, h9, h10, h11, h12⟩ := fish_plain (h c (by simp))
    simp only [run, step, h1, h2, h3, h4, h5, h6, h7, h12, or_self, if_false, Bool.false_eq_true, Option.bind_some]
    rw [ih (fun x hx => h x (by simp [hx]))]
    simp

theorem run_gap_safe (s : Str) (hne : s ≠ []) (h : ∀ c ∈ s, isSafeChar c = true) (w : List Seg) (e : Str) (l : Stmt) (o : List Stmt) :
    run ⟨.gap, w, e, l, o⟩ s = some ⟨.word, s.map .ch, e, l, o⟩ := by
  match s, hne with
  | c :: cs, _ =>
    obtain ⟨h1, h2, h3, h4, h5, h6, h7, h8, h9, h10, h11, h12⟩ := fish_plain (h c (by simp))
    have h13 : c ≠ '!' := by rintro rfl; exact absurd h12 (by decide)
    have h14 : c ≠ '#' := by rintro rfl; exact absurd h12 (by decide)
    simp only [run, step, h1, h2, h3, h4, h5, h6, h7, h8, h9, h10, h11, h12, h13, h14, or_self, if_false, Bool.false_eq_true, Option.bind_some]
    rw [run_word_safe _ (fun x hx => h x (by simp [hx]))]
    simp

theorem run_sq (s : Str) (hb : backslashHarmless s = true) (w : List Seg) (e : Str) (l : Stmt) (o : List Stmt) :
    run ⟨.sq, w, e, l, o⟩ (replaceChar '\'' ['\'', '"', '\'', '"', '\''] s ++ ['\'']) = some ⟨.word, w ++ s.map .ch, e, l, o⟩ := by
  match s with
  | [] => simp [run, step, replaceChar]
  | c :: cs =>
    have hc := bh_cons hb
    have ih1 := fun w => run_sq cs hc.1 w e l o
    by_cases h1 : c = '\''
    · subst h1
      simp only [replaceChar, if_true, List.cons_append, List.nil_append]
      simp [run, step, ih1]
    · by_cases h2 : c = '\\'
      · subst h2
        obtain ⟨d, ds, rfl, hd1, hd2⟩ := hc.2 rfl
        have hds := bh_cons hc.1
        have ih2 := fun w => run_sq ds hds.1 w e l o
        simp [replaceChar, hd2, run, step, hd1, ih2]
      · simp only [replaceChar, h1, if_false, List.cons_append, run, step, h2, Option.bind_some]
        rw [ih1]; simp

theorem run_dq (s : Str) (h : '"' ∉ s) (hb : '`' ∉ s) (w : List Seg) (e : Str) (l : Stmt) (o : List Stmt) :
    run ⟨.dq, w, e, l, o⟩ (escapeDouble s ++ ['"']) = some ⟨.word, w ++ s.map .ch, e, l, o⟩ := by
  induction s generalizing w with
  | nil => simp [run, step, escapeDouble, replaceChar]
  | cons c cs ih =>
    simp only [List.mem_cons, not_or] at h hb
    have ih' := fun w => ih h.2 hb.2 w
    rw [escapeDouble_cons]
    split
    · rename_i h1
      rcases h1 with rfl | rfl | rfl
      · simp [run, step, ih']
      · simp [run, step, ih']
      · exact absurd rfl hb.1
    · rename_i h1
      simp only [not_or] at h1
      simp only [List.cons_append, List.nil_append, run, step, Ne.symm h.1, h1.1, h1.2.1, if_false, Option.bind_some]
      rw [ih']; simp

theorem run_quote (s : Str) (h : fishReadable s = true) (e : Str) (l : Stmt) (o : List Stmt) :
    run ⟨.gap, [], e, l, o⟩ (quote s) = some ⟨.word, s.map .ch, e, l, o⟩ := by
  unfold quote
  simp only [Bool.not_true, Bool.and_false, Bool.false_eq_true, if_false]
  split
  · rename_i h1
    have := needsQuote_false (by simpa using h1)
    exact run_gap_safe s this.1 this.2 _ _ _ _
  · split
    · rename_i h1
      have h' : '\'' ∉ s := by simpa using h1
      have hb : backslashHarmless s = true := by simpa [fishReadable, h'] using h
      have := run_sq s hb [] e l o
      rw [replaceChar_not_mem _ _ _ h'] at this
      simp only [List.append_assoc, List.cons_append, List.nil_append, run, step]
      simpa using this
    · rename_i h1
      split
      · rename_i h2
        have h1' : '\'' ∈ s := by simpa using h1
        have h2' : '"' ∉ s := by simpa using h2
        have hb : '`' ∉ s := by simpa [fishReadable, h1', h2'] using h
        have := run_dq s h2' hb [] e l o
        simp only [List.append_assoc, List.cons_append, List.nil_append, run, step]
        simpa using this
      · rename_i h2
        have h2' : '"' ∈ s := by simpa using h2
        have hb : backslashHarmless s = true := by simpa [fishReadable, h2'] using h
        have := run_sq s hb [] e l o
        simp only [List.append_assoc, List.cons_append, List.nil_append, run, step]
        simpa using this

/-! ## Words and statements -/

/-- Between words, with the tokens of a statement. -/
abbrev between (l : Stmt) (o : List Stmt) : State := ⟨.gap, [], [], l, o⟩

/-- The text adds these tokens to a statement. -/
def Words (t : Str) (ts : List Tok) : Prop := ∀ l o, ∃ st, run (between l o) t = some st ∧
  rest st = some (between (l ++ ts) o) ∧ step st ' ' = some (between (l ++ ts) o)

/-- The text is read as these statements. -/
def Stmts (t : Str) (ss : List Stmt) : Prop := ∀ o, ∃ st st', run (between [] o) t = some st ∧ rest st = some st' ∧
  endLine st' = some (between [] (o ++ ss))

theorem words_space {t u : Str} {a b : List Tok} (h1 : Words t a) (h2 : Words u b) : Words (t ++ ' ' :: u) (a ++ b) := by
  intro l o
  obtain ⟨st, e1, e2, e3⟩ := h1 l o
  obtain ⟨st', f1, f2, f3⟩ := h2 (l ++ a) o
  refine ⟨st', ?_, by rw [f2, List.append_assoc], by rw [f3, List.append_assoc]⟩
  rw [run_append, e1, Option.bind_some, run, e3, Option.bind_some, f1]

theorem words_nil : Words [] [] := fun l o => ⟨_, rfl, by simp [rest], by simp [step]⟩

/-- A word has been read. -/
theorem words_of_word {t : Str} {w : List Seg} (h : ∀ l o, run (between l o) t = some ⟨.word, w, [], l, o⟩) :
    Words t [.word w] := by
  intro l o
  exact ⟨_, h l o, rfl, by simp [step, endWord]⟩

theorem words_quote (s : Str) (h : fishReadable s = true) : Words (quote s) [lit s] :=
  words_of_word (fun l o => run_quote s h [] l o)

theorem words_safe (s : Str) (hne : s ≠ []) (h : ∀ c ∈ s, isSafeChar c = true) : Words s [lit s] :=
  words_of_word (fun l o => run_gap_safe s hne h [] [] l o)

theorem words_joined : ∀ (ws : List Str), (∀ w ∈ ws, fishReadable w = true) → Words (joinQuoted ws) (call ws)
  | [], _ => words_nil
  | [w], h => words_quote w (h w (by simp))
  | w :: x :: r, h => by
    have ih := words_joined (x :: r) (fun y hy => h y (by simp [hy]))
    have := words_space (words_quote w (h w (by simp))) ih
    simp only [joinQuoted, List.map_cons, joinWith, List.append_assoc, List.cons_append, List.nil_append] at this ⊢
    exact this

theorem endsInWord_append (a : Stmt) (w : List Seg) : endsInWord (a ++ [.word w]) = true := by
  match a with
  | [] => rfl
  | [x] => cases x <;> rfl
  | x :: y :: r =>
    have := endsInWord_append (y :: r) w
    simp only [List.cons_append] at this ⊢
    simpa [endsInWord] using this

theorem stmts_of_words {t : Str} {l : Stmt} (h : Words t l) (hl : endsInWord l = true) : Stmts t [l] := by
  intro o
  obtain ⟨st, e1, e2, _⟩ := h [] o
  refine ⟨st, _, e1, e2, ?_⟩
  have hne : l ≠ [] := by rintro rfl; cases hl
  simp [endLine, hne, hl]

theorem stmts_nil : Stmts [] [] := fun o => ⟨_, _, rfl, rfl, by simp [endLine]⟩

theorem endsInWord_call (ws : List Str) (h : ws ≠ []) : endsInWord (call ws) = true := by
  rcases List.eq_nil_or_concat ws with rfl | ⟨r, c, rfl⟩
  · exact absurd rfl h
  · simp only [call, List.concat_eq_append, List.map_append, List.map_cons, List.map_nil]
    exact endsInWord_append _ _

theorem stmts_call {ws : List Str} (hne : ws ≠ []) (h : ∀ w ∈ ws, fishReadable w = true) : Stmts (joinQuoted ws) [call ws] :=
  stmts_of_words (words_joined ws h) (endsInWord_call ws hne)

theorem endLine_fields (st : State) : endLine { line := st.line, out := st.out } = endLine st := rfl

/-- The end of a line is the end of a text. -/
theorem step_end {st st' : State} (h : rest st = some st') {c : Char} (hc : c = '\n' ∨ c = ';') : step st c = endLine st' := by
  unfold rest at h
  split at h
  · rename_i hm
    cases h
    rcases hc with rfl | rfl <;> simp [step, hm] <;> rfl
  · rename_i hm
    cases h
    rcases hc with rfl | rfl <;> simp [step, hm]
  · rename_i hm
    rcases hc with rfl | rfl <;> simp [step, hm, h, Fish.varChar]
  · cases h

theorem stmts_line {t u : Str} {a b : List Stmt} (h1 : Stmts t a) (h2 : Stmts u b) : Stmts (t ++ '\n' :: u) (a ++ b) := by
  intro o
  obtain ⟨st, st1, e1, e2, e3⟩ := h1 o
  obtain ⟨st', st2, f1, f2, f3⟩ := h2 (o ++ a)
  refine ⟨st', st2, ?_, f2, by rw [f3, List.append_assoc]⟩
  rw [run_append, e1, Option.bind_some, run, step_end e2 (Or.inl rfl), e3, Option.bind_some, f1]

theorem stmts_semicolon {t u : Str} {a b : List Stmt} (h1 : Stmts t a) (h2 : Stmts u b) : Stmts (t ++ S "; " ++ u) (a ++ b) := by
  intro o
  obtain ⟨st, st1, e1, e2, e3⟩ := h1 o
  obtain ⟨st', st2, f1, f2, f3⟩ := h2 (o ++ a)
  refine ⟨st', st2, ?_, f2, by rw [f3, List.append_assoc]⟩
  rw [List.append_assoc, run_append, e1, Option.bind_some]
  show (step st ';').bind (fun st => (step st ' ').bind (fun st => run st u)) = _
  rw [step_end e2 (Or.inr rfl), e3]
  simp only [Option.bind_some]
  rw [show step (between [] (o ++ a)) ' ' = some (between [] (o ++ a)) by simp [step]]
  simpa using f1

/-- The statements before do not matter. -/
def addOut (p : List Stmt) (st : State) : State := { st with out := p ++ st.out }

theorem endLine_addOut (p : List Stmt) (st : State) : endLine (addOut p st) = (endLine st).map (addOut p) := by
  unfold endLine addOut
  simp only
  split
  · rfl
  · split <;> simp

theorem operator_addOut (p : List Stmt) (t : Tok) (st : State) : operator t (addOut p st) = (operator t st).map (addOut p) := by
  unfold operator addOut
  simp only
  split <;> simp

theorem endName_addOut (p : List Stmt) (st : State) : endName (addOut p st) = (endName st).map (addOut p) := by
  unfold endName addOut
  simp only
  split <;> simp

theorem endWord_addOut (p : List Stmt) (st : State) : endWord (addOut p st) = addOut p (endWord st) := rfl

theorem ite_both {α β : Type} {p : Prop} [Decidable p] {a b : Option β} {a' b' : Option α} {f : α → β}
    (h1 : a = a'.map f) (h2 : b = b'.map f) : (if p then a else b) = (if p then a' else b').map f := by
  split <;> assumption

theorem nameLine_addOut (p : List Stmt) (st : State) :
    (endName (addOut p st)).bind endLine = ((endName st).bind endLine).map (addOut p) := by
  rw [endName_addOut]
  cases endName st with
  | none => rfl
  | some x => simp [endLine_addOut]

theorem wordLine_addOut (p : List Stmt) (st : State) :
    endLine (endWord (addOut p st)) = (endLine (endWord st)).map (addOut p) := by
  rw [endWord_addOut, endLine_addOut]

theorem step_addOut (p : List Stmt) (st : State) (c : Char) : step (addOut p st) c = (step st c).map (addOut p) := by
  obtain ⟨m, w, e, l, o⟩ := st
  cases m <;> simp only [step, show (addOut p ⟨_, w, e, l, o⟩).mode = _ from rfl] <;>
    repeat' first
      | exact endLine_addOut p _
      | exact wordLine_addOut p _
      | exact nameLine_addOut p _
      | exact endName_addOut p _
      | exact operator_addOut p _ _
      | apply ite_both
      | rfl

theorem run_addOut (p : List Stmt) (st : State) (t : Str) : run (addOut p st) t = (run st t).map (addOut p) := by
  induction t generalizing st with
  | nil => rfl
  | cons c cs ih =>
    simp only [run, step_addOut]
    cases step st c with
    | none => rfl
    | some x => simp [ih]

theorem rest_addOut (p : List Stmt) (st : State) : rest (addOut p st) = (rest st).map (addOut p) := by
  obtain ⟨m, w, e, l, o⟩ := st
  have hn := endName_addOut p ⟨m, w, e, l, o⟩
  cases m <;> first | rfl | exact hn

theorem endLine_out {st st' : State} (h : endLine st = some st') : st' = between [] st'.out := by
  unfold endLine at h
  split at h
  · cases h; rfl
  · split at h
    · cases h; rfl
    · cases h

theorem stmts_of_read {t : Str} {ss : List Stmt} (h : FishCode.read t = some ss) : Stmts t ss := by
  unfold FishCode.read at h
  intro o
  have e0 : between [] o = addOut o {} := by simp [addOut]
  cases h1 : run {} t with
  | none => simp [h1] at h
  | some st =>
    rw [h1, Option.bind_some] at h
    cases h2 : rest st with
    | none => simp [h2] at h
    | some st' =>
      rw [h2, Option.bind_some] at h
      cases h3 : endLine st' with
      | none => simp [h3] at h
      | some st'' =>
        rw [h3] at h
        simp at h
        refine ⟨addOut o st, addOut o st', by rw [e0, run_addOut, h1]; rfl, by rw [rest_addOut, h2]; rfl, ?_⟩
        rw [endLine_addOut, h3, Option.map_some, endLine_out h3, h]
        rfl

theorem Stmts.read {t : Str} {ss : List Stmt} (h : Stmts t ss) : FishCode.read t = some ss := by
  obtain ⟨st, st', h1, h2, h3⟩ := h []
  unfold FishCode.read
  rw [show ({} : State) = between [] [] from rfl, h1, Option.bind_some, h2, Option.bind_some, h3]
  simp

theorem stmts_joined_lines : ∀ {cs : List Str} {sss : List (List Stmt)}, All2 Stmts cs sss →
    Stmts (joinWith ['\n'] cs) sss.flatten
  | _, _, .nil => stmts_nil
  | _, _, .cons h .nil => by simpa [joinWith] using h
  | _, _, .cons h (.cons h' r) => by
    have := stmts_line h (stmts_joined_lines (.cons h' r))
    simpa [joinWith] using this

theorem stmts_joined_semicolons : ∀ {cs : List Str} {sss : List (List Stmt)}, All2 Stmts cs sss →
    Stmts (joinWith (S "; ") cs) sss.flatten
  | _, _, .nil => stmts_nil
  | _, _, .cons h .nil => by simpa [joinWith] using h
  | _, _, .cons h (.cons h' r) => by
    have := stmts_semicolon h (stmts_joined_semicolons (.cons h' r))
    simpa [joinWith] using this

/-! ## Continued lines -/

theorem words_continued {t u : Str} {a b : List Tok} (h1 : Words t a) (h2 : Words u b) :
    Words (t ++ [' ', '\\', '\n'] ++ u) (a ++ b) := by
  have h3 : Words ('\\' :: '\n' :: u) b := by
    intro l o
    obtain ⟨st, e1, e2, e3⟩ := h2 l o
    exact ⟨st, by simpa [run, step] using e1, e2, e3⟩
  have := words_space h1 h3
  simpa using this

theorem words_indented {u : Str} {b : List Tok} (h2 : Words u b) : Words ([' ', ' '] ++ u) b := by
  intro l o
  obtain ⟨st, e1, e2, e3⟩ := h2 l o
  exact ⟨st, by simpa [run, step] using e1, e2, e3⟩

theorem words_lines : ∀ (lines : List (List Str)), lines ≠ [] → (∀ l ∈ lines, ∀ w ∈ l, fishReadable w = true) →
    Words (joinWith [' ', '\\', '\n'] (lines.map (fun l => [' ', ' '] ++ joinQuoted l))) (call lines.flatten)
  | [], h, _ => absurd rfl h
  | [l], _, h => by
    have := words_indented (words_joined l (h l (by simp)))
    simpa [joinWith] using this
  | l :: x :: r, _, h => by
    have ih := words_lines (x :: r) (by simp) (fun y hy => h y (by simp [hy]))
    have := words_continued (words_indented (words_joined l (h l (by simp)))) ih
    have e : call (l :: x :: r).flatten = call l ++ call (x :: r).flatten := by simp [call]
    rw [e]
    simpa [joinWith] using this

/-! ## Variables and substitutions -/

theorem words_name (n : Str) (hne : n ≠ []) (h : ∀ c ∈ n, Fish.varChar c = true) : Words ('$' :: n) [.word [.exp n]] := by
  have key : ∀ (n e : Str) (w : List Seg) (l : Stmt) (o : List Stmt), (∀ c ∈ n, Fish.varChar c = true) →
      run ⟨.name, w, e, l, o⟩ n = some ⟨.name, w, e ++ n, l, o⟩ := by
    intro n
    induction n with
    | nil => intros; simp [run]
    | cons c cs ih =>
      intro e w l o h
      simp only [run, step, h c (by simp), if_true, Option.bind_some]
      rw [ih _ _ _ _ (fun x hx => h x (by simp [hx]))]
      simp
  intro l o
  refine ⟨⟨.name, [], n, l, o⟩, ?_, by simp [rest, endName, hne], by simp [step, endName, hne, Fish.varChar]⟩
  simp only [run, step]
  simpa using key n [] [] l o h

/-- The characters that a substitution can consist of. -/
def subChar (c : Char) : Bool := !(c == ')' || c == '\'' || c == '"' || c == '\\' || c == '(' || c == '#' || c == '\n')

theorem words_sub (t : Str) (h : ∀ c ∈ t, subChar c = true) : Words ('(' :: (t ++ [')'])) [.word [.sub t]] := by
  have key : ∀ (t e : Str) (w : List Seg) (l : Stmt) (o : List Stmt), (∀ c ∈ t, subChar c = true) →
      run ⟨.sub, w, e, l, o⟩ t = some ⟨.sub, w, e ++ t, l, o⟩ := by
    intro n
    induction n with
    | nil => intros; simp [run]
    | cons c cs ih =>
      intro e w l o h
      have hc := h c (by simp)
      simp only [subChar, Bool.not_eq_true', Bool.or_eq_false_iff, beq_eq_false_iff_ne] at hc
      simp only [run, step, hc, or_self, if_false, Option.bind_some]
      rw [ih _ _ _ _ (fun x hx => h x (by simp [hx]))]
      simp
  refine words_of_word (fun l o => ?_)
  have := key t [] [] l o h
  simp only [run, step]
  simp [run_append, this, run, step]

theorem safe_sub {c : Char} (h : isSafeChar c = true) : subChar c = true := by
  rw [subChar, Bool.not_eq_true', Bool.eq_false_iff]
  intro hc
  simp only [Bool.or_eq_true, beq_iff_eq] at hc
  rcases hc with (((((rfl | rfl) | rfl) | rfl) | rfl) | rfl) | rfl <;> revert h <;> decide

/-! ## Texts that can be read -/

theorem bh_none {s : Str} (h : '\\' ∉ s) : backslashHarmless s = true := by
  induction s with
  | nil => rfl
  | cons c cs ih =>
    simp only [List.mem_cons, not_or] at h
    rw [backslashHarmless.eq_def]
    split <;> simp_all

theorem readable_safe {s : Str} (h : ∀ c ∈ s, isSafeChar c = true) : fishReadable s = true := by
  have h1 : '\'' ∉ s := by intro hm; have := h _ hm; revert this; decide
  have h2 : '\\' ∉ s := safe_no h (Or.inr rfl)
  simp [fishReadable, h1, bh_none h2]

end FishReads
end CC
