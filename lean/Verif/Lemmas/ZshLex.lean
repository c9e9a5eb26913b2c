import Verif.Lemmas.ZshUtils
import Verif.Spec.ZshText
/-!
# Lemmas: how Zsh reads words and lines
-/

namespace CC
namespace ZshLex
open ZshText

theorem run_append (s : State) (t u : Str) : run s (t ++ u) = (run s t).bind (fun s => run s u) := by
  induction t generalizing s with
  | nil => rfl
  | cons c cs ih =>
    simp only [List.cons_append, run]
    cases step s c with
    | none => rfl
    | some s' => simp only [Option.bind_some, ih]

theorem run_cons (s : State) (c : Char) (t : Str) : run s (c :: t) = (step s c).bind (fun s => run s t) := rfl

/-! ## Texts that stay in a word -/

/-- In a word, the text is a part of the word. -/
def Adds (t : Str) : Prop := ∀ w o, run ⟨.word, w, o⟩ t = some ⟨.word, w ++ t, o⟩

theorem adds_nil : Adds [] := by intro w o; simp [run]

theorem adds_append {t u : Str} (h1 : Adds t) (h2 : Adds u) : Adds (t ++ u) := by
  intro w o
  rw [run_append, h1, Option.bind_some, h2, List.append_assoc]

theorem adds_plain (t : Str) (h : ∀ c ∈ t, c ∉ ['\'', '"', '\\', '(', '$', '<', '>', '`', ' ', '\t', '\n', '&', '|', ';', ')']) : Adds t := by
  induction t with
  | nil => exact adds_nil
  | cons c cs ih =>
    intro w o
    have hc := h c (by simp)
    simp only [List.mem_cons, not_or, List.not_mem_nil, not_false_eq_true, and_true] at hc
    obtain ⟨a1, a2, a3, a4, a5, a6, a7, a8, a9, a10, a11, a12, a13, a14, a15⟩ := hc
    simp only [run, step, wordStep, a1, a2, a3, a4, a5, a6, a7, a8, a9, a10, a11, a12, a13, a14, a15, or_self, if_false, Option.bind_some]
    rw [ih (fun x hx => h x (by simp [hx]))]
    simp

theorem gap_blank {s : Str} (h : Posix.read .gap [] s = some []) : ∀ c ∈ s, Posix.blank c = true := by
  induction s with
  | nil => simp
  | cons c cs ih =>
    simp only [Posix.read] at h
    by_cases hb : Posix.blank c = true
    · rw [if_pos hb] at h
      intro x hx
      rcases List.mem_cons.mp hx with rfl | hx
      · exact hb
      · exact ih h x hx
    · rw [if_neg hb] at h
      exfalso
      have key : ∀ m acc s, m ≠ Posix.Mode.gap → Posix.read m acc s ≠ some [] := by
        intro m acc s hm e
        rw [read_prefix s m acc hm] at e
        cases h' : Posix.read m [] s <;> simp [h'] at e
      repeat' split at h
      all_goals first | exact key _ _ _ (by simp) h | cases h

/-- The text does not end with a blank. -/
def Tight (s : Str) : Prop := ∀ c, s.getLast? = some c → Posix.blank c = false

theorem tight_tail {c : Char} {cs : Str} (h : Tight (c :: cs)) : Tight cs := by
  intro x hx
  cases cs with
  | nil => simp at hx
  | cons d ds => exact h x (by rw [List.getLast?_cons_cons]; exact hx)

theorem not_special {c : Char} (h : Posix.special.contains c = false) :
    c ≠ '(' ∧ c ≠ '$' ∧ c ≠ '<' ∧ c ≠ '>' ∧ c ≠ '`' ∧ c ≠ '&' ∧ c ≠ '|' ∧ c ≠ ';' ∧ c ≠ ')' ∧ c ≠ '#' := by
  refine ⟨?_, ?_, ?_, ?_, ?_, ?_, ?_, ?_, ?_, ?_⟩ <;> rintro rfl <;> revert h <;> decide

theorem not_blank {c : Char} (h : Posix.blank c = false) : c ≠ ' ' ∧ c ≠ '\t' ∧ c ≠ '\n' := by
  refine ⟨?_, ?_, ?_⟩ <;> rintro rfl <;> revert h <;> decide

theorem step_plain {c : Char} (w : Str) (o : List Tok) (hb : Posix.blank c = false) (h1 : c ≠ '\'') (h2 : c ≠ '"') (h3 : c ≠ '\\')
    (hs : Posix.special.contains c = false) : wordStep w o c = some ⟨.word, w ++ [c], o⟩ := by
  obtain ⟨b1, b2, b3⟩ := not_blank hb
  obtain ⟨a1, a2, a3, a4, a5, a6, a7, a8, a9, a10⟩ := not_special hs
  simp only [wordStep, h1, h2, h3, a1, a2, a3, a4, a5, a6, a7, a8, a9, b1, b2, b3, or_self, if_false]

theorem run_of_read (s : Str) : '\n' ∉ s → Tight s →
    (∀ acc x, Posix.read .word acc s = some [x] → ∀ w o, run ⟨.word, w, o⟩ s = some ⟨.word, w ++ s, o⟩) ∧
    (∀ acc x, Posix.read .sq acc s = some [x] → ∀ w o, run ⟨.sq, w, o⟩ s = some ⟨.word, w ++ s, o⟩) ∧
    (∀ acc x, Posix.read .dq acc s = some [x] → ∀ w o, run ⟨.dq, w, o⟩ s = some ⟨.word, w ++ s, o⟩) ∧
    (∀ acc x, Posix.read .esc acc s = some [x] → ∀ w o, run ⟨.esc, w, o⟩ s = some ⟨.word, w ++ '\\' :: s, o⟩) ∧
    (∀ acc x, Posix.read .dqEsc acc s = some [x] → ∀ w o, run ⟨.dqEsc, w, o⟩ s = some ⟨.word, w ++ s, o⟩) := by
  induction s with
  | nil => intro _ _; simp [Posix.read, run]
  | cons c cs ih =>
    intro hn ht
    simp only [List.mem_cons, not_or] at hn
    obtain ⟨i1, i2, i3, i4, i5⟩ := ih hn.2 (tight_tail ht)
    refine ⟨?_, ?_, ?_, ?_, ?_⟩
    · intro acc x h w o
      simp only [Posix.read] at h
      by_cases hb : Posix.blank c = true
      · rw [if_pos hb] at h
        exfalso
        cases hg : Posix.read .gap [] cs with
        | none => rw [hg] at h; cases h
        | some ws =>
          rw [hg] at h
          simp only [Option.map_some, Option.some.injEq, List.cons.injEq] at h
          rw [h.2] at hg
          have hall := gap_blank hg
          cases hl : (c :: cs).getLast? with
          | none => simp at hl
          | some d =>
            have hd := ht d hl
            have hm := List.mem_of_mem_getLast? hl
            rcases List.mem_cons.mp hm with rfl | hm
            · rw [hb] at hd; cases hd
            · rw [hall d hm] at hd; cases hd
      rw [if_neg hb] at h
      by_cases h1 : c = '\''
      · subst h1
        simp only [if_true] at h
        simp only [run, step, wordStep, if_true, Option.bind_some]
        rw [i2 _ _ h]; simp
      rw [if_neg h1] at h
      by_cases h2 : c = '"'
      · subst h2
        simp only [if_true] at h
        simp only [run, step, wordStep, if_true, if_neg (show ('"' : Char) ≠ '\'' by decide), Option.bind_some]
        rw [i3 _ _ h]; simp
      rw [if_neg h2] at h
      by_cases h3 : c = '\\'
      · subst h3
        simp only [if_true] at h
        simp only [run, step, wordStep, if_true, if_neg (show ('\\' : Char) ≠ '\'' by decide), if_neg (show ('\\' : Char) ≠ '"' by decide),
          Option.bind_some]
        rw [i4 _ _ h]
      rw [if_neg h3] at h
      by_cases h4 : Posix.special.contains c = true
      · rw [if_pos h4] at h; cases h
      rw [if_neg h4] at h
      simp only [run, step]
      rw [step_plain w o (by simpa using hb) h1 h2 h3 (by simpa using h4), Option.bind_some, i1 _ _ h]
      simp
    · intro acc x h w o
      simp only [Posix.read] at h
      by_cases h1 : c = '\''
      · rw [if_pos h1] at h
        simp only [run, step, if_pos h1, Option.bind_some]
        rw [i1 _ _ h]; simp
      · rw [if_neg h1] at h
        simp only [run, step, if_neg h1, Option.bind_some]
        rw [i2 _ _ h]; simp
    · intro acc x h w o
      simp only [Posix.read] at h
      by_cases h1 : c = '"'
      · rw [if_pos h1] at h
        simp only [run, step, if_pos h1, if_neg (show ¬ c = '`' by rw [h1]; decide), Option.bind_some]
        rw [i1 _ _ h]; simp
      rw [if_neg h1] at h
      by_cases h2 : c = '\\'
      · rw [if_pos h2] at h
        simp only [run, step, if_pos h2, if_neg h1, if_neg (show ¬ c = '`' by rw [h2]; decide), Option.bind_some]
        rw [i5 _ _ h]; simp
      rw [if_neg h2] at h
      by_cases h3 : c = '$' ∨ c = '`'
      · rw [if_pos h3] at h; cases h
      rw [if_neg h3] at h
      simp only [not_or] at h3
      simp only [run, step, if_neg h1, if_neg h2, if_neg h3.1, if_neg h3.2, Option.bind_some]
      rw [i3 _ _ h]; simp
    · intro acc x h w o
      simp only [Posix.read] at h
      rw [if_neg (Ne.symm hn.1)] at h
      simp only [run, step, if_neg (Ne.symm hn.1), Option.bind_some]
      rw [i1 _ _ h]; simp
    · intro acc x h w o
      simp only [Posix.read] at h
      simp only [run, step, Option.bind_some]
      by_cases h1 : c = '$' ∨ c = '`' ∨ c = '"' ∨ c = '\\'
      · rw [if_pos h1] at h; rw [i3 _ _ h]; simp
      · rw [if_neg h1, if_neg (Ne.symm hn.1)] at h; rw [i3 _ _ h]; simp

/-- A text that a shell reads as a part of one word. -/
theorem adds_of_read {s x : Str} (hn : '\n' ∉ s) (ht : Tight s) {acc : Str} (h : Posix.read .word acc s = some [x]) : Adds s :=
  (run_of_read s hn ht).1 _ _ h

theorem quote_tight (s : Str) : Tight (quote s) := by
  intro c hc
  unfold quote at hc
  simp only [Bool.not_true, Bool.and_false, Bool.false_eq_true, if_false] at hc
  split at hc
  · rename_i hq
    exact (safe_not_special ((needsQuote_false (by simpa using hq)).2 c (List.mem_of_mem_getLast? hc))).1
  · split at hc
    · rw [List.getLast?_append] at hc; simp at hc; subst hc; decide
    · split at hc
      · rw [List.getLast?_append] at hc; simp at hc; subst hc; decide
      · rw [List.getLast?_append] at hc; simp at hc; subst hc; decide

theorem replaceChar_break (x : Char) (y s : Str) (hy : '\n' ∉ y) (h : '\n' ∉ s) : '\n' ∉ replaceChar x y s := by
  induction s with
  | nil => simp [replaceChar]
  | cons c cs ih =>
    simp only [List.mem_cons, not_or] at h
    unfold replaceChar
    split
    · simp only [List.mem_append, not_or]; exact ⟨hy, ih h.2⟩
    · simp only [List.mem_cons, not_or]; exact ⟨h.1, ih h.2⟩

theorem quote_break (s : Str) (h : '\n' ∉ s) : '\n' ∉ quote s := by
  unfold quote
  simp only [Bool.not_true, Bool.and_false, Bool.false_eq_true, if_false]
  split
  · exact h
  · split
    · simpa using h
    · split
      · have : '\n' ∉ escapeDouble s := by
          unfold escapeDouble
          exact replaceChar_break _ _ _ (by decide) (replaceChar_break _ _ _ (by decide) (replaceChar_break _ _ _ (by decide) h))
        simpa using this
      · have := replaceChar_break '\'' ['\'', '"', '\'', '"', '\''] s (by decide) h
        simpa using this

theorem adds_quote (s : Str) (h : '\n' ∉ s) : Adds (quote s) := by
  apply adds_of_read (quote_break s h) (quote_tight s) (acc := []) (x := s)
  have := read_quote_word [] s []
  rw [List.append_nil] at this
  rw [this]; simp [Posix.read]

theorem adds_safe (s : Str) (h : ∀ c ∈ s, isSafeChar c = true) : Adds s := by
  apply adds_plain
  intro c hc hm
  have := h c hc
  simp only [List.mem_cons, List.not_mem_nil, or_false] at hm
  rcases hm with rfl | rfl | rfl | rfl | rfl | rfl | rfl | rfl | rfl | rfl | rfl | rfl | rfl | rfl | rfl <;> revert this <;> decide

/-! ## Words -/

/-- A character that begins a word as it goes on in a word. -/
def begins (c : Char) : Bool := !(c ∈ [' ', '\t', '\n', '&', '|', ';', '(', ')', '<', '>', '#', '`', '\\'] : Bool)

theorem gap_word {c : Char} (o : List Tok) (h : begins c = true) : gapStep o c = wordStep [] o c := by
  simp only [begins, Bool.not_eq_true', decide_eq_false_iff_not, List.mem_cons, List.not_mem_nil, or_false, not_or] at h
  obtain ⟨a1, a2, a3, a4, a5, a6, a7, a8, a9, a10, a11, a12, a13⟩ := h
  unfold gapStep wordStep
  simp only [a1, a2, a3, a4, a5, a6, a7, a8, a9, a10, a11, a12, a13, or_self, if_false, List.nil_append]

/-- Between words, the text is a word as it is written. -/
def IsWord (t : Str) : Prop := ∀ o, run ⟨.gap, [], o⟩ t = some ⟨.word, t, o⟩

theorem isWord_of_adds {t : Str} (ha : Adds t) {c : Char} (hc : t.head? = some c) (hb : begins c = true) : IsWord t := by
  intro o
  cases t with
  | nil => cases hc
  | cons d ds =>
    simp only [List.head?_cons, Option.some.injEq] at hc
    subst hc
    have := ha [] o
    simp only [run, step] at this ⊢
    rw [gap_word o hb, this]
    simp

theorem begins_safe {c : Char} (h : isSafeChar c = true) : begins c = true := by
  simp only [begins, Bool.not_eq_true', decide_eq_false_iff_not]
  intro hm
  simp only [List.mem_cons, List.not_mem_nil, or_false] at hm
  rcases hm with rfl | rfl | rfl | rfl | rfl | rfl | rfl | rfl | rfl | rfl | rfl | rfl | rfl <;> revert h <;> decide

theorem quote_begins (s : Str) : ∃ c, (quote s).head? = some c ∧ begins c = true := by
  have hne := quote_not_nil s
  cases hq : (quote s).head? with
  | none => exact absurd (List.head?_eq_none_iff.mp hq) hne
  | some c =>
    refine ⟨c, rfl, ?_⟩
    unfold quote at hq
    simp only [Bool.not_true, Bool.and_false, Bool.false_eq_true, if_false] at hq
    split at hq
    · rename_i h
      exact begins_safe ((needsQuote_false (by simpa using h)).2 c (List.mem_of_mem_head? hq))
    · split at hq
      · simp at hq; subst hq; decide
      · split at hq
        · simp at hq; subst hq; decide
        · simp at hq; subst hq; decide

theorem isWord_quote (s : Str) (h : '\n' ∉ s) : IsWord (quote s) := by
  obtain ⟨c, h1, h2⟩ := quote_begins s
  exact isWord_of_adds (adds_quote s h) h1 h2

theorem isWord_safe {s : Str} (hne : s ≠ []) (h : ∀ c ∈ s, isSafeChar c = true) : IsWord s := by
  obtain ⟨c, cs, rfl⟩ := List.exists_cons_of_ne_nil hne
  exact isWord_of_adds (adds_safe _ h) rfl (begins_safe (h c (by simp)))

/-! ## Texts of several tokens -/

/-- The text, before a blank, a line break, or an operator, adds these tokens. -/
def Reads (t : Str) (ts : List Tok) : Prop :=
  ∀ o c, c ∈ [' ', '\n', ';', '|', ')'] → run ⟨.gap, [], o⟩ (t ++ [c]) = gapStep (o ++ ts) c

theorem reads_word {t : Str} (h : IsWord t) : Reads t [.word t] := by
  intro o c hc
  rw [run_append, h, Option.bind_some]
  simp only [run, step]
  have hc' : (c = ' ' ∨ c = '\t' ∨ c = '\n' ∨ c = '&' ∨ c = '|' ∨ c = ';' ∨ c = ')') ∧
      ¬ (c = '\'') ∧ ¬ (c = '"') ∧ ¬ (c = '\\') ∧ ¬ (c = '(') ∧ ¬ (c = '$') ∧ ¬ (c = '<' ∨ c = '>' ∨ c = '`') := by
    simp only [List.mem_cons, List.not_mem_nil, or_false] at hc
    rcases hc with rfl | rfl | rfl | rfl | rfl <;> decide
  obtain ⟨h1, h2, h3, h4, h5, h6, h7⟩ := hc'
  unfold wordStep
  rw [if_neg h2, if_neg h3, if_neg h4, if_neg h5, if_neg h6, if_neg h7, if_pos h1]
  cases gapStep (o ++ [.word t]) c <;> rfl

/-- A text that ends between words. -/
theorem reads_gap {t : Str} {ts : List Tok} (h : ∀ o, run ⟨.gap, [], o⟩ t = some ⟨.gap, [], o ++ ts⟩) : Reads t ts := by
  intro o c _
  rw [run_append, h, Option.bind_some]
  simp only [run, step]
  cases gapStep (o ++ ts) c <;> rfl

theorem gapStep_space (o : List Tok) : gapStep o ' ' = some ⟨.gap, [], o⟩ := by simp [gapStep]

theorem reads_space {t u : Str} {a b : List Tok} (h1 : Reads t a) (h2 : Reads u b) : Reads (t ++ ' ' :: u) (a ++ b) := by
  intro o c hc
  have e : t ++ ' ' :: u ++ [c] = (t ++ [' ']) ++ (u ++ [c]) := by simp
  rw [e, run_append, h1 o ' ' (by simp), gapStep_space, Option.bind_some, h2 _ c hc, List.append_assoc]

theorem reads_blank {t : Str} {a : List Tok} (h : Reads t a) : Reads (' ' :: t) a := by
  intro o c hc
  show run _ (' ' :: (t ++ [c])) = _
  rw [run_cons]
  simp only [step, gapStep_space, Option.bind_some]
  exact h o c hc

theorem reads_join : ∀ (es : List (Str × List Tok)), es ≠ [] → (∀ e ∈ es, Reads e.1 e.2) →
    Reads (joinWith [' '] (es.map (·.1))) (es.flatMap (·.2))
  | [], h, _ => absurd rfl h
  | [e], _, h => by simpa [joinWith] using h e (by simp)
  | e :: f :: r, _, h => by
    have h1 := h e (by simp)
    have h2 := reads_join (f :: r) (by simp) (fun x hx => h x (by simp [hx]))
    have := reads_space h1 h2
    simpa [joinWith] using this

theorem joinQuoted_cons_cons (a b : Str) (r : List Str) : joinQuoted (a :: b :: r) = quote a ++ ' ' :: joinQuoted (b :: r) := by
  simp [joinQuoted, joinWith]

theorem reads_joinQuoted : ∀ (ws : List Str), ws ≠ [] → (∀ w ∈ ws, '\n' ∉ w) →
    Reads (joinQuoted ws) (ws.map (fun w => .word (quote w)))
  | [], h, _ => absurd rfl h
  | [w], _, h => by simpa [joinQuoted, joinWith] using reads_word (isWord_quote w (h w (by simp)))
  | a :: b :: r, _, h => by
    rw [joinQuoted_cons_cons]
    exact reads_space (reads_word (isWord_quote a (h a (by simp)))) (reads_joinQuoted (b :: r) (by simp) (fun w hw => h w (by simp [hw])))

/-! ## Lines -/

/-- The line with its line break adds these tokens. -/
def LineReads (l : Str) (ts : List Tok) : Prop := ∀ o, run ⟨.gap, [], o⟩ (l ++ ['\n']) = some ⟨.gap, [], o ++ ts⟩

theorem line_of_reads {l : Str} {ts : List Tok} (h : Reads l ts) : LineReads l (ts ++ [.nl]) := by
  intro o
  rw [h o '\n' (by simp)]
  simp [gapStep]

theorem line_empty : LineReads [] [.nl] := by intro o; simp [run, step, gapStep]

theorem line_spaces {l : Str} {ts : List Tok} (n : Nat) (h : LineReads l ts) : LineReads (List.replicate n ' ' ++ l) ts := by
  induction n with
  | zero => simpa using h
  | succ n ih =>
    intro o
    show run _ (' ' :: (List.replicate n ' ' ++ l ++ ['\n'])) = _
    rw [run_cons]
    simp only [step, gapStep_space, Option.bind_some]
    exact ih o

/-- Lines and what they add. -/
inductive AllRead : List Str → List Tok → Prop
  | nil : AllRead [] []
  | cons {l ts ls us} : LineReads l ts → AllRead ls us → AllRead (l :: ls) (ts ++ us)

theorem allRead_append {a b : List Str} {x y : List Tok} (h1 : AllRead a x) (h2 : AllRead b y) : AllRead (a ++ b) (x ++ y) := by
  induction h1 with
  | nil => exact h2
  | cons h _ ih => rw [List.cons_append, List.append_assoc]; exact .cons h ih

theorem allRead_one {l : Str} {ts : List Tok} (h : LineReads l ts) : AllRead [l] ts := by
  have := AllRead.cons h .nil
  rwa [List.append_nil] at this

theorem run_lines {ls : List Str} {ts : List Tok} (h : AllRead ls ts) (o : List Tok) :
    run ⟨.gap, [], o⟩ (ls.flatMap (· ++ ['\n'])) = some ⟨.gap, [], o ++ ts⟩ := by
  induction h generalizing o with
  | nil => simp [run]
  | cons h _ ih =>
    rw [List.flatMap_cons, run_append, h o, Option.bind_some, ih, List.append_assoc]

theorem join_lines : ∀ (ls : List Str), ls ≠ [] → joinWith ['\n'] ls ++ ['\n'] = ls.flatMap (· ++ ['\n'])
  | [], h => absurd rfl h
  | [l], _ => by simp [joinWith]
  | a :: b :: r, _ => by
    have := join_lines (b :: r) (by simp)
    simp only [joinWith, List.flatMap_cons] at this ⊢
    rw [List.append_assoc, List.append_assoc, this]
    simp

/-! ## The tokens so far -/

/-- The state with more tokens in front. -/
def State.after (o : List Tok) (s : State) : State := ⟨s.mode, s.word, o ++ s.out⟩

theorem gapStep_after (o p : List Tok) (c : Char) : gapStep (o ++ p) c = (gapStep p c).map (State.after o) := by
  unfold gapStep
  by_cases h0 : c = ' ' ∨ c = '\t'
  · rw [if_pos h0, if_pos h0]; simp [State.after]
  rw [if_neg h0, if_neg h0]
  by_cases h1 : c = '\n'
  · rw [if_pos h1, if_pos h1]; simp [State.after]
  rw [if_neg h1, if_neg h1]
  by_cases h2 : c = '\''
  · rw [if_pos h2, if_pos h2]; simp [State.after]
  rw [if_neg h2, if_neg h2]
  by_cases h3 : c = '"'
  · rw [if_pos h3, if_pos h3]; simp [State.after]
  rw [if_neg h3, if_neg h3]
  by_cases h4 : c = '\\'
  · rw [if_pos h4, if_pos h4]; simp [State.after]
  rw [if_neg h4, if_neg h4]
  by_cases h5 : c = '&'
  · rw [if_pos h5, if_pos h5]; simp [State.after]
  rw [if_neg h5, if_neg h5]
  by_cases h6 : c = '|'
  · rw [if_pos h6, if_pos h6]; simp [State.after]
  rw [if_neg h6, if_neg h6]
  by_cases h7 : c = ';'
  · rw [if_pos h7, if_pos h7]; simp [State.after]
  rw [if_neg h7, if_neg h7]
  by_cases h8 : c = '('
  · rw [if_pos h8, if_pos h8]; simp [State.after]
  rw [if_neg h8, if_neg h8]
  by_cases h9 : c = ')'
  · rw [if_pos h9, if_pos h9]; simp [State.after]
  rw [if_neg h9, if_neg h9]
  by_cases h10 : c = '$'
  · rw [if_pos h10, if_pos h10]; simp [State.after]
  rw [if_neg h10, if_neg h10]
  by_cases h11 : c = '<' ∨ c = '>' ∨ c = '#' ∨ c = '`'
  · rw [if_pos h11, if_pos h11]; simp [State.after]
  rw [if_neg h11, if_neg h11]
  simp [State.after]

theorem wordStep_after (o p : List Tok) (w : Str) (c : Char) : wordStep w (o ++ p) c = (wordStep w p c).map (State.after o) := by
  unfold wordStep
  repeat' split
  all_goals first | (rw [List.append_assoc, gapStep_after]; done) | simp [State.after]

theorem step_after (o : List Tok) (s : State) (c : Char) : step (State.after o s) c = (step s c).map (State.after o) := by
  obtain ⟨m, w, p⟩ := s
  cases m <;> simp only [State.after, step]
  case gap => exact gapStep_after o p c
  case word => exact wordStep_after o p w c
  case bar => split <;> first | (rw [List.append_assoc]; exact gapStep_after o _ c) | simp [State.after]
  case semi => split <;> first | (rw [List.append_assoc]; exact gapStep_after o _ c) | simp [State.after]
  all_goals (repeat' split) <;> simp [State.after]

theorem run_after (o : List Tok) (t : Str) : ∀ s, run (State.after o s) t = (run s t).map (State.after o) := by
  induction t with
  | nil => intro s; rfl
  | cons c cs ih =>
    intro s
    simp only [run, step_after]
    cases step s c with
    | none => rfl
    | some s' => simp only [Option.map_some, Option.bind_some, ih]

theorem run_out {m m' : Mode} {w w' t : Str} {ts : List Tok} (h : run ⟨m, w, []⟩ t = some ⟨m', w', ts⟩) (o : List Tok) :
    run ⟨m, w, o⟩ t = some ⟨m', w', o ++ ts⟩ := by
  have := run_after o t ⟨m, w, []⟩
  rw [h] at this
  simpa [State.after] using this

theorem isWord_of {t : Str} (h : run ⟨.gap, [], []⟩ t = some ⟨.word, t, []⟩) : IsWord t := by
  intro o; simpa using run_out h o

theorem line_of {l : Str} {ts : List Tok} (h : run ⟨.gap, [], []⟩ (l ++ ['\n']) = some ⟨.gap, [], ts⟩) : LineReads l ts :=
  fun o => run_out h o

/-! ## Logical lines and statements -/

/-- The tokens of complete logical lines. -/
def Split (ts : List Tok) (ls : List (List Tok)) : Prop := ∀ r, lines 0 [] (ts ++ r) = ls ++ lines 0 [] r

theorem split_nil : Split [] [] := fun _ => rfl

theorem split_append {a b : List Tok} {x y : List (List Tok)} (h1 : Split a x) (h2 : Split b y) : Split (a ++ b) (x ++ y) := by
  intro r
  rw [List.append_assoc, h1, h2, List.append_assoc]

/-- How tokens change the depth, and the tokens without line breaks in parentheses. -/
def pass : Nat → List Tok → Option (Nat × List Tok)
  | d, [] => some (d, [])
  | 0, .nl :: _ => none
  | d + 1, .nl :: r => pass (d + 1) r
  | d, .attached :: r => (pass (d + 1) r).map (fun x => (x.1, .attached :: x.2))
  | d, .rpar :: r => (pass (d - 1) r).map (fun x => (x.1, .rpar :: x.2))
  | d, t :: r => (pass d r).map (fun x => (x.1, t :: x.2))

theorem lines_pass (ts : List Tok) : ∀ d d' l cur r, pass d ts = some (d', l) → lines d cur (ts ++ r) = lines d' (cur ++ l) r := by
  induction ts with
  | nil => intro d d' l cur r h; simp only [pass, Option.some.injEq, Prod.mk.injEq] at h; obtain ⟨rfl, rfl⟩ := h; simp
  | cons t ts ih =>
    intro d d' l cur r h
    have key : ∀ d0 (x : Tok), ((pass d0 ts).map (fun y => (y.1, x :: y.2))) = some (d', l) →
        lines d0 (cur ++ [x]) (ts ++ r) = lines d' (cur ++ l) r := by
      intro d0 x hx
      cases hp : pass d0 ts with
      | none => rw [hp] at hx; cases hx
      | some y =>
        rw [hp] at hx
        simp only [Option.map_some, Option.some.injEq, Prod.mk.injEq] at hx
        obtain ⟨rfl, rfl⟩ := hx
        rw [ih _ _ _ _ _ hp]; simp
    cases t with
    | nl =>
      cases d with
      | zero => simp [pass] at h
      | succ d => simp only [pass] at h; simp only [List.cons_append, lines]; exact ih _ _ _ _ _ h
    | attached => cases d <;> (simp only [pass] at h; simp only [List.cons_append, lines]; exact key _ _ h)
    | rpar => cases d <;> (simp only [pass] at h; simp only [List.cons_append, lines]; exact key _ _ h)
    | _ => cases d <;> (simp only [pass] at h; simp only [List.cons_append, lines]; exact key _ _ h)

theorem pass_append (a b : List Tok) : ∀ d d' l, pass d a = some (d', l) → pass d (a ++ b) = (pass d' b).map (fun x => (x.1, l ++ x.2)) := by
  induction a with
  | nil =>
    intro d d' l h
    simp only [pass, Option.some.injEq, Prod.mk.injEq] at h
    obtain ⟨rfl, rfl⟩ := h
    show pass d b = _
    cases pass d b <;> simp
  | cons t ts ih =>
    intro d d' l h
    have key : ∀ d0 (x : Tok), ((pass d0 ts).map (fun y => (y.1, x :: y.2))) = some (d', l) →
        ((pass d0 (ts ++ b)).map (fun y => (y.1, x :: y.2))) = (pass d' b).map (fun x => (x.1, l ++ x.2)) := by
      intro d0 x hx
      cases hp : pass d0 ts with
      | none => rw [hp] at hx; cases hx
      | some y =>
        rw [hp] at hx
        simp only [Option.map_some, Option.some.injEq, Prod.mk.injEq] at hx
        obtain ⟨rfl, rfl⟩ := hx
        rw [ih _ _ _ hp]
        cases pass y.1 b <;> simp
    cases t with
    | nl =>
      cases d with
      | zero => simp [pass] at h
      | succ d => simp only [pass] at h; simp only [List.cons_append, pass]; exact ih _ _ _ h
    | attached => cases d <;> (simp only [pass] at h; simp only [List.cons_append, pass]; exact key _ _ h)
    | rpar => cases d <;> (simp only [pass] at h; simp only [List.cons_append, pass]; exact key _ _ h)
    | _ => cases d <;> (simp only [pass] at h; simp only [List.cons_append, pass]; exact key _ _ h)

theorem split_of_pass {ts l : List Tok} (h : pass 0 ts = some (0, l)) : Split (ts ++ [.nl]) [l] := by
  intro r
  rw [List.append_assoc, lines_pass ts 0 0 l [] _ h]
  rfl

/-- Tokens without parentheses and line breaks. -/
def flat (t : Tok) : Bool := match t with | .nl => false | .attached => false | .rpar => false | _ => true

theorem pass_flat (d : Nat) (ts : List Tok) (h : ∀ t ∈ ts, flat t = true) : pass d ts = some (d, ts) := by
  induction ts with
  | nil => cases d <;> rfl
  | cons t ts ih =>
    have ht := h t (by simp)
    have := ih (fun x hx => h x (by simp [hx]))
    cases t <;> first | (simp [flat] at ht; done) | (cases d <;> simp [pass, this])

theorem pass_words (d : Nat) (ws : List Str) : pass d (ws.map .word) = some (d, ws.map .word) := by
  apply pass_flat
  intro t ht
  obtain ⟨w, -, rfl⟩ := List.mem_map.mp ht
  rfl

/-- The statements of tokens. -/
def Gives (ts : List Tok) (ss : List Stmt) : Prop :=
  ∃ ls, Split ts ls ∧ (ls.filter (fun l => !l.isEmpty)).map stmt = ss.map some

theorem gives_nil : Gives [] [] := ⟨[], split_nil, rfl⟩

theorem gives_append {a b : List Tok} {x y : List Stmt} (h1 : Gives a x) (h2 : Gives b y) : Gives (a ++ b) (x ++ y) := by
  obtain ⟨l, e1, e2⟩ := h1
  obtain ⟨m, f1, f2⟩ := h2
  exact ⟨l ++ m, split_append e1 f1, by rw [List.filter_append, List.map_append, e2, f2, List.map_append]⟩

theorem gives_one {ts l : List Tok} {s : Stmt} (h : pass 0 ts = some (0, l)) (hne : l ≠ []) (hs : stmt l = some s) : Gives (ts ++ [.nl]) [s] := by
  refine ⟨[l], split_of_pass h, ?_⟩
  cases l with
  | nil => exact absurd rfl hne
  | cons a b => simp [hs]

theorem gives_blank : Gives [.nl] [] := ⟨[[]], split_of_pass (ts := []) rfl, rfl⟩

/-- The statements of lines. -/
def Means (ls : List Str) (ss : List Stmt) : Prop := ∃ ts, AllRead ls ts ∧ Gives ts ss

theorem means_nil : Means [] [] := ⟨[], .nil, gives_nil⟩

theorem means_append {a b : List Str} {x y : List Stmt} (h1 : Means a x) (h2 : Means b y) : Means (a ++ b) (x ++ y) := by
  obtain ⟨t, e1, e2⟩ := h1
  obtain ⟨u, f1, f2⟩ := h2
  exact ⟨t ++ u, allRead_append e1 f1, gives_append e2 f2⟩

theorem means_blank : Means [[]] [] := ⟨[.nl], allRead_one line_empty, gives_blank⟩

theorem means_line {l : Str} {ts : List Tok} {k : List Tok} {s : Stmt} (h : LineReads l (ts ++ [.nl])) (hp : pass 0 ts = some (0, k))
    (hne : k ≠ []) (hs : stmt k = some s) : Means [l] [s] := ⟨_, allRead_one h, gives_one hp hne hs⟩

theorem means_reads {l : Str} {ts : List Tok} {k : List Tok} {s : Stmt} (h : Reads l ts) (hp : pass 0 ts = some (0, k))
    (hne : k ≠ []) (hs : stmt k = some s) : Means [l] [s] := means_line (line_of_reads h) hp hne hs

theorem allRead_spaces {f : Str → Str} (hf : ∀ l, ∃ n, f l = List.replicate n ' ' ++ l) {ls : List Str} {ts : List Tok} (h : AllRead ls ts) :
    AllRead (ls.map f) ts := by
  induction h with
  | nil => exact .nil
  | @cons l ts ls us hl _ ih =>
    obtain ⟨n, e⟩ := hf l
    rw [List.map_cons, e]
    exact .cons (line_spaces n hl) ih

/-- Lines may be indented. -/
theorem means_spaces {f : Str → Str} (hf : ∀ l, ∃ n, f l = List.replicate n ' ' ++ l) {ls : List Str} {ss : List Stmt} (h : Means ls ss) :
    Means (ls.map f) ss := by
  obtain ⟨ts, h1, h2⟩ := h
  exact ⟨ts, allRead_spaces hf h1, h2⟩

theorem allSome_map {α : Type} (l : List α) : allSome (l.map some) = some l := by
  induction l with
  | nil => rfl
  | cons a r ih => simp [allSome, ih]

/-- A text of lines, the last of which is a word. -/
theorem read_lines {ls : List Str} {l : Str} {ss : List Stmt} {s : Stmt} (h : Means ls ss) (hl : IsWord l) (hs : stmt [.word l] = some s) :
    ZshText.read (joinWith ['\n'] (ls ++ [l])) = functions none (ss ++ [s]) := by
  obtain ⟨ts, h1, k, h2, h3⟩ := h
  have ht : joinWith ['\n'] (ls ++ [l]) = ls.flatMap (· ++ ['\n']) ++ l := by
    have := join_lines (ls ++ [l]) (by simp)
    rw [List.flatMap_append, List.flatMap_cons, List.flatMap_nil, List.append_nil, ← List.append_assoc] at this
    exact List.append_cancel_right this
  have hr : run {} (joinWith ['\n'] (ls ++ [l])) = some ⟨.word, l, ts⟩ := by
    rw [ht, run_append]
    have := run_lines h1 []
    simp only [List.nil_append] at this
    show (run ⟨.gap, [], []⟩ _).bind _ = _
    rw [this, Option.bind_some, hl]
  unfold ZshText.read tokens
  rw [hr]
  simp only [Option.bind_some, finish]
  have hsp : lines 0 [] (ts ++ [.word l]) = k ++ [[.word l]] := by
    rw [h2]; rfl
  rw [hsp, List.filter_append, List.map_append, h3]
  have e : ([[Tok.word l]].filter (fun l => !l.isEmpty)).map stmt = [s].map some := by simp [hs]
  rw [e, ← List.map_append, allSome_map, Option.bind_some]

end ZshLex
end CC
