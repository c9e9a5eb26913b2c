import Verif.Spec.BashCode
import Verif.Lemmas.Quoting
import Verif.Model.BashComplete
/-!
# Lemmas about the reader of Bash code
-/

namespace CC
open BashCode

/-! ## The reader on texts put together -/

theorem run_append (st : State) (a b : List Char) : run st (a ++ b) = (run st a).bind (fun s => run s b) := by
  induction a generalizing st with
  | nil => rfl
  | cons c cs ih =>
    simp only [List.cons_append, run]
    cases step st c with
    | none => rfl
    | some s => simp [ih]

/-- A state with tokens in front. -/
def State.after (o : List Tok) (st : State) : State := { st with out := o ++ st.out }

theorem atStart_after (o : List Tok) (g : Bool) (st : State) (c : Char) :
    atStart g (State.after o st) c = (atStart g st c).map (State.after o) := by
  unfold atStart State.after
  repeat' split
  all_goals simp_all

theorem step_after (o : List Tok) (st : State) (c : Char) :
    step (State.after o st) c = (step st c).map (State.after o) := by
  obtain ⟨m, w, e, out⟩ := st
  cases m with
  | gap => exact atStart_after o false ⟨.gap, w, e, out⟩ c
  | oper => exact atStart_after o true ⟨.oper, w, e, out⟩ c
  | joined => exact atStart_after o false ⟨.joined, w, e, out⟩ c
  | _ =>
    simp only [step, State.after]
    (repeat' split)
    all_goals simp_all [State.after]

theorem run_after (o : List Tok) (st : State) (t : List Char) :
    run (State.after o st) t = (run st t).map (State.after o) := by
  induction t generalizing st with
  | nil => rfl
  | cons c cs ih =>
    simp only [run, step_after]
    cases step st c with
    | none => rfl
    | some s => simp [ih]

/-! ## Quoted texts -/

/-- The pieces of a literal text. -/
abbrev chs (s : Str) : List Seg := s.map Seg.ch

theorem safe_plain {c : Char} (h : isSafeChar c = true) :
    ¬ (c = ' ' ∨ c = '\t') ∧ c ≠ '\n' ∧ c ≠ '\'' ∧ c ≠ '"' ∧ c ≠ '\\' ∧ c ≠ '$' ∧ operators.contains c = false ∧
      unsupported.contains c = false ∧ c ≠ '`' ∧ c ≠ '}' := by
  refine ⟨?_, ?_, ?_, ?_, ?_, ?_, ?_, ?_, ?_, ?_⟩
  · rintro (rfl | rfl) <;> revert h <;> decide
  iterate 5 (rintro rfl; revert h; decide)
  · cases hc : operators.contains c with
    | false => rfl
    | true =>
      simp [operators] at hc
      rcases hc with rfl | rfl | rfl | rfl | rfl | rfl <;> revert h <;> decide
  · cases hc : unsupported.contains c with
    | false => rfl
    | true =>
      simp [unsupported] at hc
      rcases hc with rfl | rfl | rfl | rfl | rfl | rfl | rfl | rfl | rfl | rfl | rfl | rfl <;> revert h <;> decide
  iterate 2 (rintro rfl; revert h; decide)

theorem run_word_safe (s : Str) (h : ∀ c ∈ s, isSafeChar c = true) (w : List Seg) (e : List Char) (o : List Tok) :
    run ⟨.word, w, e, o⟩ s = some ⟨.word, w ++ chs s, e, o⟩ := by
  induction s generalizing w with
  | nil => simp [run]
  | cons c cs ih =>
    obtain ⟨h1, h2, h3, h4, h5, h6, h7, h8, _, _⟩ := safe_plain (h c (by simp))
    simp only [run, step, h1, h2, h3, h4, h5, h6, h7, h8, if_false, Bool.false_eq_true, Option.bind_some]
    rw [ih (fun x hx => h x (by simp [hx]))]
    simp

theorem run_start_safe (s : Str) (h : ∀ c ∈ s, isSafeChar c = true) (hne : s ≠ []) (m : BashCode.Mode)
    (hm : m = .gap ∨ m = .oper) (w : List Seg) (e : List Char) (o : List Tok) :
    run ⟨m, w, e, o⟩ s = some ⟨.word, chs s, e, o⟩ := by
  cases s with
  | nil => exact absurd rfl hne
  | cons c cs =>
    obtain ⟨h1, h2, h3, h4, h5, h6, h7, h8, _, _⟩ := safe_plain (h c (by simp))
    rcases hm with rfl | rfl <;>
    · simp only [run, step, atStart, h1, h2, h3, h4, h5, h6, h7, h8, if_false, Bool.false_eq_true, Option.bind_some]
      rw [run_word_safe cs (fun x hx => h x (by simp [hx]))]
      simp

theorem run_sq (s : Str) (h : '\'' ∉ s) (w : List Seg) (e : List Char) (o : List Tok) :
    run ⟨.sq, w, e, o⟩ s = some ⟨.sq, w ++ chs s, e, o⟩ := by
  induction s generalizing w with
  | nil => simp [run]
  | cons c cs ih =>
    have hc : c ≠ '\'' := fun hc => h (by simp [hc])
    simp only [run, step, hc, if_false, Option.bind_some]
    rw [ih (fun hx => h (by simp [hx]))]
    simp

theorem run_dq (s : Str) (h : '"' ∉ s) (w : List Seg) (e : List Char) (o : List Tok) :
    run ⟨.dq, w, e, o⟩ (escapeDouble s) = some ⟨.dq, w ++ chs s, e, o⟩ := by
  induction s generalizing w with
  | nil => simp [run, escapeDouble, replaceChar]
  | cons c cs ih =>
    have hc : c ≠ '"' := fun hc => h (by simp [hc])
    have ih := ih (fun hx => h (by simp [hx]))
    rw [escapeDouble_cons]
    by_cases h1 : c = '\\' ∨ c = '$' ∨ c = '`'
    · rw [if_pos h1]
      have h2 : c = '$' ∨ c = '`' ∨ c = '"' ∨ c = '\\' := by
        rcases h1 with h | h | h <;> simp [h]
      simp only [List.cons_append, List.nil_append, run, step, if_pos h2, Option.bind_some]
      simp [ih]
    · rw [if_neg h1]
      simp only [not_or] at h1
      simp only [List.cons_append, List.nil_append, run, step, hc, h1.1, h1.2.1, h1.2.2, if_false, Option.bind_some]
      rw [ih]
      simp

theorem run_sq_mixed (s : Str) (w : List Seg) (e : List Char) (o : List Tok) :
    run ⟨.sq, w, e, o⟩ (replaceChar '\'' ['\'', '"', '\'', '"', '\''] s) = some ⟨.sq, w ++ chs s, e, o⟩ := by
  induction s generalizing w with
  | nil => simp [run, replaceChar]
  | cons c cs ih =>
    simp only [replaceChar]
    by_cases hc : c = '\''
    · subst hc
      have h1 : run ⟨.sq, w, e, o⟩ ['\'', '"', '\'', '"', '\''] = some ⟨.sq, w ++ [.ch '\''], e, o⟩ := rfl
      simp only [if_true, run_append, h1, Option.bind_some]
      rw [ih]; simp
    · simp only [hc, if_false, run, step, Option.bind_some]
      rw [ih]; simp

/-- A quoted text at the start of a word. -/
theorem run_quote_start (s : Str) (m : BashCode.Mode) (hm : m = .gap ∨ m = .oper) (w : List Seg) (e : List Char)
    (o : List Tok) : run ⟨m, w, e, o⟩ (quote s) = some ⟨.word, chs s, e, o⟩ := by
  unfold quote
  simp only [Bool.not_true, Bool.and_false, Bool.false_eq_true, if_false]
  split
  · rename_i h
    have h := needsQuote_false (by simpa using h)
    exact run_start_safe s h.2 h.1 m hm w e o
  · have hq : run ⟨m, w, e, o⟩ ['\''] = some ⟨.sq, [], e, o⟩ := by rcases hm with rfl | rfl <;> rfl
    have hd : run ⟨m, w, e, o⟩ ['"'] = some ⟨.dq, [], e, o⟩ := by rcases hm with rfl | rfl <;> rfl
    have hq2 : ∀ w', run ⟨.sq, w', e, o⟩ ['\''] = some ⟨.word, w', e, o⟩ := fun _ => rfl
    have hd2 : ∀ w', run ⟨.dq, w', e, o⟩ ['"'] = some ⟨.word, w', e, o⟩ := fun _ => rfl
    split
    · rename_i h
      have h : '\'' ∉ s := by simpa using h
      simp only [run_append, hq, Option.bind_some, run_sq s h, hq2, List.nil_append]
    · split
      · rename_i h
        have h : '"' ∉ s := by simpa using h
        simp only [run_append, hd, Option.bind_some, run_dq s h, hd2, List.nil_append]
      · simp only [run_append, hq, Option.bind_some, run_sq_mixed s, hq2, List.nil_append]

/-- A quoted text inside a word. -/
theorem run_quote_word (s : Str) (w : List Seg) (e : List Char) (o : List Tok) :
    run ⟨.word, w, e, o⟩ (quote s) = some ⟨.word, w ++ chs s, e, o⟩ := by
  unfold quote
  simp only [Bool.not_true, Bool.and_false, Bool.false_eq_true, if_false]
  split
  · rename_i h
    have h := needsQuote_false (by simpa using h)
    exact run_word_safe s h.2 w e o
  · have hq : run ⟨.word, w, e, o⟩ ['\''] = some ⟨.sq, w, e, o⟩ := rfl
    have hd : run ⟨.word, w, e, o⟩ ['"'] = some ⟨.dq, w, e, o⟩ := rfl
    have hq2 : ∀ w', run ⟨.sq, w', e, o⟩ ['\''] = some ⟨.word, w', e, o⟩ := fun _ => rfl
    have hd2 : ∀ w', run ⟨.dq, w', e, o⟩ ['"'] = some ⟨.word, w', e, o⟩ := fun _ => rfl
    split
    · rename_i h
      have h : '\'' ∉ s := by simpa using h
      simp only [run_append, hq, Option.bind_some, run_sq s h, hq2]
    · split
      · rename_i h
        have h : '"' ∉ s := by simpa using h
        simp only [run_append, hd, Option.bind_some, run_dq s h, hd2]
      · simp only [run_append, hq, Option.bind_some, run_sq_mixed s, hq2]

/-- A quoted character inside `${…}`. -/
theorem run_quote_brace (c : Char) (w : List Seg) (e : List Char) (o : List Tok) :
    run ⟨.brace, w, e, o⟩ (quote [c]) = some ⟨.brace, w, e ++ quote [c], o⟩ := by
  by_cases hs : isSafeChar c = true
  · obtain ⟨_, _, h3, h4, h5, h6, _, _, h9, h10⟩ := safe_plain hs
    have hq : quote [c] = [c] := by simp [quote, needsQuote, hs]
    rw [hq]
    simp [run, step, h3, h4, h5, h6, h9, h10]
  · have hs : isSafeChar c = false := by simpa using hs
    by_cases h : c = '\''
    · subst h
      have hq : quote ['\''] = ['"', '\'', '"'] := by decide
      rw [hq]; simp [run, step]
    · have hq : quote [c] = ['\'', c, '\''] := by simp [quote, needsQuote, hs, Ne.symm h]
      rw [hq]
      simp [run, step, h]

/-! ## Words joined by blanks -/

/-- The words of a joined text, when the last one is still open. -/
theorem run_joinQuoted (a : Str) (as : List Str) (o : List Tok) (m : BashCode.Mode) (hm : m = .gap ∨ m = .oper) :
    ∃ last, run ⟨m, [], [], o⟩ (joinQuoted (a :: as)) =
        some ⟨.word, last, [], o ++ ((a :: as).dropLast.map (fun w => .word (chs w)))⟩ ∧
      last = chs ((a :: as).getLast (by simp)) := by
  induction as generalizing a o m with
  | nil =>
    refine ⟨_, ?_, rfl⟩
    simp [joinQuoted, joinWith, run_quote_start a m hm]
  | cons b bs ih =>
    obtain ⟨last, h1, h2⟩ := ih b (o ++ [.word (chs a)]) .gap (Or.inl rfl)
    refine ⟨last, ?_, ?_⟩
    · have : joinQuoted (a :: b :: bs) = quote a ++ ([' '] ++ joinQuoted (b :: bs)) := by
        simp [joinQuoted, joinWith]
      rw [this, run_append, run_quote_start a m hm, Option.bind_some, run_append]
      have hb : run ⟨.word, chs a, [], o⟩ [' '] = some ⟨.gap, [], [], o ++ [.word (chs a)]⟩ := rfl
      rw [hb, Option.bind_some, h1]
      simp
    · rw [h2]; simp

/-! ## Lines -/

theorem lines_nl (acc a b : List Tok) : lines acc (a ++ [.nl] ++ b) = lines acc (a ++ [.nl]) ++ lines [] b := by
  induction a generalizing acc with
  | nil =>
    simp only [List.nil_append, List.cons_append, lines]
    split <;> simp
  | cons t ts ih =>
    cases t with
    | nl =>
      simp only [List.cons_append, lines] at ih ⊢
      split
      · exact ih []
      · rw [ih []]; rfl
    | word w => simp only [List.cons_append, lines] at ih ⊢; exact ih _
    | op c g => simp only [List.cons_append, lines] at ih ⊢; exact ih _

theorem stmts_append (a b : List (List Tok)) (x y : List Stmt) (ha : stmts a = some x) (hb : stmts b = some y) :
    stmts (a ++ b) = some (x ++ y) := by
  induction a generalizing x with
  | nil => simp [stmts] at ha; subst ha; simpa using hb
  | cons l ls ih =>
    simp only [List.cons_append, stmts] at ha ⊢
    cases h1 : stmt l with
    | none => simp [h1] at ha
    | some s =>
      cases h2 : stmts ls with
      | none => simp [h1, h2] at ha
      | some r =>
        simp [h1, h2] at ha
        subst ha
        simp [ih r h2]

/-- A text that is read line by line. -/
def ReadsAs (t : Str) (ss : List Stmt) : Prop :=
  ∃ toks, run {} (t ++ ['\n']) = some { out := toks } ∧ (∃ x, toks = x ++ [.nl]) ∧ stmts (lines [] toks) = some ss

theorem ReadsAs.read {t : Str} {ss : List Stmt} (h : ReadsAs t ss) : BashCode.read t = some ss := by
  obtain ⟨toks, h1, _, h3⟩ := h
  simp [BashCode.read, tokens, h1, h3]

theorem ReadsAs.append {a b : Str} {x y : List Stmt} (ha : ReadsAs a x) (hb : ReadsAs b y) :
    ReadsAs (a ++ ['\n'] ++ b) (x ++ y) := by
  obtain ⟨ta, ha1, ⟨xa, hxa⟩, ha3⟩ := ha
  obtain ⟨tb, hb1, ⟨xb, hxb⟩, hb3⟩ := hb
  refine ⟨ta ++ tb, ?_, ⟨ta ++ xb, by simp [hxb]⟩, ?_⟩
  · have : a ++ ['\n'] ++ b ++ ['\n'] = (a ++ ['\n']) ++ (b ++ ['\n']) := by simp
    rw [this, run_append, ha1, Option.bind_some]
    have h2 := run_after ta {} (b ++ ['\n'])
    rw [hb1] at h2
    simpa [State.after] using h2
  · subst hxa
    rw [lines_nl]
    exact stmts_append _ _ _ _ ha3 hb3

theorem ReadsAs.nil : ReadsAs [] [] := ⟨[.nl], rfl, ⟨[], rfl⟩, rfl⟩

/-- A single line. -/
theorem ReadsAs.line {t : Str} {l : List Tok} {s : Stmt} (h : run {} (t ++ ['\n']) = some { out := l ++ [.nl] })
    (hl : .nl ∉ l) (hne : l ≠ []) (hs : stmt l = some s) : ReadsAs t [s] := by
  refine ⟨_, h, ⟨l, rfl⟩, ?_⟩
  have key : ∀ acc, .nl ∉ l → lines acc (l ++ [.nl]) = if acc ++ l = [] then [] else [acc ++ l] := by
    clear h hne hs
    induction l with
    | nil => intro acc _; simp only [List.nil_append, lines]; split <;> simp_all
    | cons t ts ih =>
      intro acc h
      have h2 : .nl ∉ ts := fun hx => h (by simp [hx])
      cases t with
      | nl => simp at h
      | word w => simp only [List.cons_append, lines]; rw [ih h2 _ h2]; simp
      | op c g => simp only [List.cons_append, lines]; rw [ih h2 _ h2]; simp
  rw [key [] hl]
  simp [hne, stmts, hs]

/-! ## A text that is read has ended all its words -/

/-- The parts of the state that are not in use are empty. -/
def Tidy (st : State) : Prop :=
  (st.mode = .gap ∨ st.mode = .oper ∨ st.mode = .joined ∨ st.mode = .gapEsc ∨ st.mode = .bareDollar ∨
    st.mode = .bareName → st.word = []) ∧
  (st.mode = .gap ∨ st.mode = .joined ∨ st.mode = .gapEsc ∨ st.mode = .oper ∨ st.mode = .word ∨ st.mode = .sq ∨ st.mode = .dq ∨ st.mode = .esc ∨
    st.mode = .dqEsc ∨ st.mode = .dollar ∨ st.mode = .bareDollar → st.exp = [])

theorem atStart_tidy {g : Bool} {st st' : State} {c : Char} (hw : st.word = []) (he : st.exp = [])
    (h : atStart g st c = some st') : Tidy st' := by
  unfold atStart at h
  repeat' split at h
  all_goals first | (simp at h; done) | (simp at h; subst h; simp [Tidy, hw, he])

theorem step_tidy {st st' : State} {c : Char} (ht : Tidy st) (h : step st c = some st') : Tidy st' := by
  obtain ⟨m, w, e, o⟩ := st
  cases m with
  | gap => exact atStart_tidy (ht.1 (by simp)) (ht.2 (by simp)) h
  | oper => exact atStart_tidy (ht.1 (by simp)) (ht.2 (by simp)) h
  | joined => exact atStart_tidy (ht.1 (by simp)) (ht.2 (by simp)) h
  | _ =>
    simp only [step] at h
    repeat' split at h
    all_goals first
      | (simp at h; done)
      | (simp at h; subst h; simp [Tidy] at ht ⊢; done)
      | (simp at h; subst h; simp [Tidy] at ht ⊢; exact ht)
      | (simp at h; subst h; simp [Tidy] at ht ⊢; exact ht.1)
      | (simp at h; subst h; simp [Tidy] at ht ⊢; exact ht.2)

theorem run_tidy {st st' : State} {t : Str} (ht : Tidy st) (h : run st t = some st') : Tidy st' := by
  induction t generalizing st with
  | nil => simp [run] at h; subst h; exact ht
  | cons c cs ih =>
    simp only [run] at h
    cases hs : step st c with
    | none => simp [hs] at h
    | some s => simp [hs] at h; exact ih (step_tidy ht hs) h

theorem step_nl_gap {st st' : State} (h : step st '\n' = some st') (hg : st'.mode = .gap) : ∃ x, st'.out = x ++ [.nl] := by
  obtain ⟨m, w, e, o⟩ := st
  cases m <;> simp [step, atStart, nameChar] at h
  all_goals first
    | (subst h; exact ⟨_, rfl⟩)
    | (subst h; simp at hg; done)
    | (subst h; exact ⟨o ++ [.word w], by simp⟩)

theorem reads_of_read {t : Str} {ss : List Stmt} (h : BashCode.read t = some ss) : ReadsAs t ss := by
  unfold BashCode.read tokens at h
  cases hr : run {} (t ++ ['\n']) with
  | none => simp [hr] at h
  | some st =>
    simp only [hr, Option.bind_some] at h
    by_cases hg : st.mode = .gap
    · have ht : Tidy st := run_tidy (by simp [Tidy]) hr
      obtain ⟨m, w, e, o⟩ := st
      simp at hg; subst hg
      have hw := ht.1 (by simp)
      have he := ht.2 (by simp)
      simp at hw he; subst hw; subst he
      simp at h
      refine ⟨o, hr, ?_, h⟩
      rw [run_append] at hr
      cases hr1 : run {} t with
      | none => simp [hr1] at hr
      | some s1 =>
        simp only [hr1, Option.bind_some, run] at hr
        cases hs : step s1 '\n' with
        | none => simp [hs] at hr
        | some s2 =>
          simp [hs] at hr
          have := step_nl_gap hs (by rw [hr])
          rw [hr] at this
          exact this
    · simp [hg] at h

end CC
