import Verif.Lemmas.ZshUtils
import Verif.Props.BashOptions
import Verif.Props.Helpers
/-!
# C52, C53, C59: the option specs of Zsh
-/

namespace CC
open ZshArgs

/-! ## C52: descriptions and metavars -/

/-- Every backslash of the text stands directly before a colon or an opening bracket. -/
def BackslashBefore : Str → Prop
  | [] => True
  | ['\\'] => False
  | '\\' :: c :: r => (c = ':' ∨ c = '[') ∧ BackslashBefore r
  | _ :: r => BackslashBefore r

/-- Taking backslashes from the left together with the character they stand before, none is left for
a colon or for the end of the text. -/
def BackslashPaired : Str → Prop
  | [] => True
  | ['\\'] => False
  | '\\' :: c :: r => c ≠ ':' ∧ BackslashPaired r
  | _ :: r => BackslashPaired r

theorem readExplanation_other {c : Char} (r : Str) (h1 : c ≠ ']') (h2 : c ≠ '\\') :
    readExplanation (c :: r) = (readExplanation r).map (fun x => (c :: x.1, x.2)) := by
  rw [readExplanation.eq_def]
  split <;> simp_all

theorem readMessage_other {c : Char} (r : Str) (h1 : c ≠ ':') (h2 : c ≠ '\\') :
    readMessage (c :: r) = (c :: (readMessage r).1, (readMessage r).2) := by
  rw [readMessage.eq_def]
  split <;> simp_all

theorem readMessage_pair {c : Char} (r : Str) (h1 : c ≠ ':') :
    readMessage ('\\' :: c :: r) = ('\\' :: c :: (readMessage r).1, (readMessage r).2) := by
  rw [readMessage]
  exact fun h => h1 h

theorem backslashBefore_other {c : Char} {r : Str} (hne : ∀ (_ : c = '\\') (_ : r = []), False)
    (hne2 : ∀ (d : Char) (q : Str) (_ : c = '\\') (_ : r = d :: q), False) : c ≠ '\\' := by
  rintro rfl
  cases r with
  | nil => exact hne rfl rfl
  | cons d r => exact hne2 d r rfl rfl

theorem explanation_lt : ∀ (s a b : Str), readExplanation s = some (a, b) → a.length + b.length < s.length := by
  intro s
  induction s using readExplanation.induct with
  | case1 => intro a b h; cases h
  | case2 r => intro a b h; simp [readExplanation] at h; simp [h]
  | case3 c r ih =>
    intro a b h
    rw [readExplanation] at h
    obtain ⟨⟨a', b'⟩, h1, h2⟩ := Option.map_eq_some_iff.mp h
    simp only [Prod.mk.injEq] at h2
    obtain ⟨rfl, rfl⟩ := h2
    have := ih _ _ h1
    simp; omega
  | case4 c r h1 h2 ih =>
    intro a b h
    have : readExplanation (c :: r) = (readExplanation r).map (fun x => (c :: x.1, x.2)) := by
      rw [readExplanation.eq_def]; split <;> simp_all
    rw [this] at h
    obtain ⟨⟨a', b'⟩, h1, h2⟩ := Option.map_eq_some_iff.mp h
    simp only [Prod.mk.injEq] at h2
    obtain ⟨rfl, rfl⟩ := h2
    have := ih _ _ h1
    simp; omega

theorem explanation_short (t : Str) : ∀ (a b : Str),
    readExplanation (escapeColon (escapeSquareBrackets t) ++ ']' :: b) = some (a, b) → a.length ≤ t.length := by
  induction t using BackslashBefore.induct with
  | case1 => intro a b; simp +contextual [escapeColon, escapeSquareBrackets, replaceChar, readExplanation, eq_comm]
  | case2 =>
    intro a b h
    have e : escapeColon (escapeSquareBrackets ['\\']) ++ ']' :: b = '\\' :: ']' :: b := by
      simp [escapeColon, escapeSquareBrackets, replaceChar]
    rw [e, readExplanation] at h
    obtain ⟨⟨a', b'⟩, h1, h2⟩ := Option.map_eq_some_iff.mp h
    simp only [Prod.mk.injEq] at h2
    obtain ⟨rfl, rfl⟩ := h2
    have := explanation_lt _ _ _ h1
    omega
  | case3 c r ih =>
    intro a b h
    rw [escapeDescription_cons, if_neg (by decide), escapeDescription_cons] at h
    by_cases hc : c = ':' ∨ c = '['
    · have : c = ':' ∨ c = '[' ∨ c = ']' := by rcases hc with h | h <;> simp [h]
      rw [if_pos this] at h
      simp only [List.cons_append, List.nil_append, readExplanation] at h
      rw [readExplanation_other _ (by rcases hc with h | h <;> subst h <;> decide)
        (by rcases hc with h | h <;> subst h <;> decide)] at h
      obtain ⟨⟨a', b'⟩, h1, h2⟩ := Option.map_eq_some_iff.mp h
      obtain ⟨⟨a2, b2⟩, h3, h4⟩ := Option.map_eq_some_iff.mp h1
      simp only [Prod.mk.injEq] at h2 h4
      obtain ⟨rfl, rfl⟩ := h2
      obtain ⟨rfl, rfl⟩ := h4
      have := ih _ _ h3
      simp; omega
    · by_cases hb : c = ']'
      · subst hb
        simp [readExplanation] at h
        have := congrArg List.length h.2
        simp at this
        omega
      · rw [if_neg (by simp only [not_or] at hc ⊢; exact ⟨hc.1, hc.2, hb⟩)] at h
        simp only [List.cons_append, List.nil_append, readExplanation] at h
        obtain ⟨⟨a', b'⟩, h1, h2⟩ := Option.map_eq_some_iff.mp h
        simp only [Prod.mk.injEq] at h2
        obtain ⟨rfl, rfl⟩ := h2
        have := ih _ _ h1
        simp; omega
  | case4 c r hne hne2 ih =>
    intro a b h
    have h2 : c ≠ '\\' := backslashBefore_other hne hne2
    rw [escapeDescription_cons] at h
    by_cases hc : c = ':' ∨ c = '[' ∨ c = ']'
    · rw [if_pos hc] at h
      simp only [List.cons_append, List.nil_append, readExplanation] at h
      obtain ⟨⟨a', b'⟩, h1, h2⟩ := Option.map_eq_some_iff.mp h
      simp only [Prod.mk.injEq] at h2
      obtain ⟨rfl, rfl⟩ := h2
      have := ih _ _ h1
      simp; omega
    · rw [if_neg hc] at h
      simp only [List.cons_append, List.nil_append] at h
      rw [readExplanation_other _ (by rintro rfl; simp at hc) h2] at h
      obtain ⟨⟨a', b'⟩, h1, h2⟩ := Option.map_eq_some_iff.mp h
      simp only [Prod.mk.injEq] at h2
      obtain ⟨rfl, rfl⟩ := h2
      have := ih _ _ h1
      simp; omega

/-- **C52**: Zsh reads the description of an option back as it was, and ends it at the bracket that ends
it, for exactly the texts in which every backslash stands directly before a colon or an opening
bracket. -/
theorem C52_description_partial (text rest : Str) :
    readExplanation (escapeColon (escapeSquareBrackets text) ++ ']' :: rest) = some (text, rest) ↔
      BackslashBefore text := by
  induction text using BackslashBefore.induct with
  | case1 => simp [escapeColon, escapeSquareBrackets, replaceChar, readExplanation, BackslashBefore]
  | case2 =>
    simp only [BackslashBefore, iff_false]
    have e : escapeColon (escapeSquareBrackets ['\\']) ++ ']' :: rest = '\\' :: ']' :: rest := by
      simp [escapeColon, escapeSquareBrackets, replaceChar]
    rw [e, readExplanation]
    cases readExplanation rest <;> simp
  | case3 c r ih =>
    simp only [BackslashBefore]
    rw [escapeDescription_cons, if_neg (by decide), escapeDescription_cons]
    by_cases hc : c = ':' ∨ c = '['
    · have : c = ':' ∨ c = '[' ∨ c = ']' := by rcases hc with h | h <;> simp [h]
      rw [if_pos this]
      simp only [List.cons_append, List.nil_append, readExplanation]
      rw [readExplanation_other _ (by rcases hc with h | h <;> subst h <;> decide)
        (by rcases hc with h | h <;> subst h <;> decide)]
      rw [← ih]
      cases readExplanation (escapeColon (escapeSquareBrackets r) ++ ']' :: rest) with
      | none => simp
      | some x =>
        obtain ⟨a, b⟩ := x
        simp [hc]
    · simp only [hc, false_and, iff_false]
      by_cases hb : c = ']'
      · subst hb
        simp [readExplanation]
      · rw [if_neg (by simp only [not_or] at hc ⊢; exact ⟨hc.1, hc.2, hb⟩)]
        simp only [List.cons_append, List.nil_append, readExplanation]
        cases hr : readExplanation (escapeColon (escapeSquareBrackets r) ++ ']' :: rest) with
        | none => simp
        | some x =>
          obtain ⟨a, b⟩ := x
          simp only [Option.map_some, Option.some.injEq, Prod.mk.injEq, List.cons.injEq, not_and]
          rintro ⟨rfl, ha⟩ rfl
          have e := congrArg List.length ha
          have := explanation_short r a b hr
          simp at e; omega
  | case4 c r hne hne2 ih =>
    have h2 : c ≠ '\\' := backslashBefore_other hne hne2
    have e : BackslashBefore (c :: r) = BackslashBefore r := by
      rw [BackslashBefore.eq_def]; split <;> simp_all
    rw [e, escapeDescription_cons, ← ih]
    by_cases hc : c = ':' ∨ c = '[' ∨ c = ']'
    · rw [if_pos hc]
      simp only [List.cons_append, List.nil_append, readExplanation]
      cases readExplanation (escapeColon (escapeSquareBrackets r) ++ ']' :: rest) with
      | none => simp
      | some x => obtain ⟨a, b⟩ := x; simp
    · rw [if_neg hc]
      simp only [List.cons_append, List.nil_append]
      rw [readExplanation_other _ (by rintro rfl; simp at hc) h2]
      cases readExplanation (escapeColon (escapeSquareBrackets r) ++ ']' :: rest) with
      | none => simp
      | some x => obtain ⟨a, b⟩ := x; simp

/-- **C52**: Zsh reads a metavar back as it was, and ends it at the colon that ends it, for exactly the
texts in which no colon, nor the end, is preceded by an odd number of backslashes. -/
theorem C52_metavar_partial (text rest : Str) :
    readMessage (escapeColon text ++ ':' :: rest) = (text, some rest) ↔ BackslashPaired text := by
  induction text using BackslashPaired.induct with
  | case1 => simp [escapeColon, replaceChar, readMessage, BackslashPaired]
  | case2 => simp [escapeColon, replaceChar, readMessage, BackslashPaired]
  | case3 c r ih =>
    simp only [BackslashPaired]
    rw [escapeColon_cons, if_neg (by decide), escapeColon_cons]
    by_cases hc : c = ':'
    · subst hc
      simp [readMessage]
    · rw [if_neg hc, ← ih]
      simp only [List.cons_append, List.nil_append]
      rw [readMessage_pair _ hc]
      cases readMessage (escapeColon r ++ ':' :: rest) with
      | mk a b => simp [hc]
  | case4 c r hne hne2 ih =>
    have h2 : c ≠ '\\' := backslashBefore_other hne hne2
    have e : BackslashPaired (c :: r) = BackslashPaired r := by
      rw [BackslashPaired.eq_def]; split <;> simp_all
    rw [e, ← ih, escapeColon_cons]
    by_cases hc : c = ':'
    · subst hc
      simp only [if_true, List.cons_append, List.nil_append, readMessage]
      cases readMessage (escapeColon r ++ ':' :: rest) with
      | mk a b => simp
    · rw [if_neg hc]
      simp only [List.cons_append, List.nil_append]
      rw [readMessage_other _ hc h2]
      cases readMessage (escapeColon r ++ ':' :: rest) with
      | mk a b => simp

/-- **C52 is false in general**: a backslash in a description is lost; at its end it takes the closing
bracket with it, so that the description never ends; a metavar with a backslash before a colon ends
early. -/
theorem C52_false :
    readExplanation (escapeColon (escapeSquareBrackets (S "use \\n")) ++ S "]") = some (S "use n", []) ∧
    readExplanation (escapeColon (escapeSquareBrackets (S "ends in \\")) ++ S "]:file:_files") = none ∧
    readMessage (escapeColon (S "C\\:x") ++ S ":_files") = (S "C\\\\", some (S "x:_files")) := by
  refine ⟨?_, ?_, ?_⟩ <;> decide

/-- A description and a metavar that meet the conditions. -/
theorem C52_example : BackslashBefore (S "a [b]: c\\:d") ∧ BackslashPaired (S "host:port\\n") ∧
    readExplanation (escapeColon (escapeSquareBrackets (S "a [b]: c\\:d")) ++ S "]") =
      some (S "a [b]: c\\:d", []) := by
  refine ⟨?_, ?_, by decide⟩ <;> simp [BackslashBefore, BackslashPaired, S]

/-! ## C59: colons in quoted actions -/

theorem noBackslash_sq (s t : Str) (h : '\'' ∉ s) : noBackslash .sq (s ++ '\'' :: t) = noBackslash .word t := by
  induction s with
  | nil => simp [noBackslash]
  | cons c cs ih =>
    simp only [List.mem_cons, not_or] at h
    simp only [List.cons_append, noBackslash, if_neg (Ne.symm h.1)]
    exact ih h.2

theorem noBackslash_dq (s t : Str) (h : '"' ∉ s) (h2 : '\\' ∉ s) :
    noBackslash .dq (s ++ '"' :: t) = noBackslash .word t := by
  induction s with
  | nil => simp [noBackslash]
  | cons c cs ih =>
    simp only [List.mem_cons, not_or] at h h2
    simp only [List.cons_append, noBackslash, if_neg (Ne.symm h.1), if_neg (Ne.symm h2.1)]
    exact ih h.2 h2.2

theorem noBackslash_word (s : Str) (h : '\'' ∉ s) (h2 : '\\' ∉ s) (h3 : '"' ∉ s) :
    noBackslash .word s = true := by
  induction s with
  | nil => rfl
  | cons c cs ih =>
    simp only [List.mem_cons, not_or] at h h2 h3
    simp only [noBackslash, if_neg (Ne.symm h.1), if_neg (Ne.symm h2.1), if_neg (Ne.symm h3.1)]
    exact ih h.2 h2.2 h3.2

theorem noBackslash_mixed (s t : Str) :
    noBackslash .sq (replaceChar '\'' ['\'', '"', '\'', '"', '\''] s ++ '\'' :: t) = noBackslash .word t := by
  induction s with
  | nil => simp [noBackslash, replaceChar]
  | cons c cs ih =>
    simp only [replaceChar]
    split
    · simp [noBackslash, ih]
    · rename_i h
      simp [noBackslash, h, ih]

theorem noBackslash_quote (x : Str) (h : '\'' ∈ x → '"' ∉ x → '$' ∉ x ∧ '`' ∉ x ∧ '\\' ∉ x) :
    noBackslash .word (quote x) = true := by
  unfold quote
  simp only [Bool.not_true, Bool.and_false, Bool.false_eq_true, if_false]
  split
  · rename_i hq
    have hs := (needsQuote_false (by simpa using hq)).2
    apply noBackslash_word
    · intro hm; exact absurd (hs _ hm) (by decide)
    · intro hm; exact absurd (hs _ hm) (by decide)
    · intro hm; exact absurd (hs _ hm) (by decide)
  · split
    · rename_i h1
      have h1 : '\'' ∉ x := by simpa using h1
      simp only [List.append_assoc, List.cons_append, List.nil_append, noBackslash]
      rw [if_neg (by decide), if_pos trivial, noBackslash_sq x [] h1]; rfl
    · split
      · rename_i h1 h2
        have h1 : '\'' ∈ x := by simpa using h1
        have h2 : '"' ∉ x := by simpa using h2
        obtain ⟨a, b, c⟩ := h h1 h2
        have e : escapeDouble x = x := by
          unfold escapeDouble
          rw [replaceChar_not_mem _ _ _ c, replaceChar_not_mem _ _ _ a, replaceChar_not_mem _ _ _ b]
        rw [e]
        simp only [List.append_assoc, List.cons_append, List.nil_append, noBackslash]
        rw [if_neg (by decide), if_neg (by decide), if_pos trivial, noBackslash_dq x [] h2 c]; rfl
      · simp only [List.append_assoc, List.cons_append, List.nil_append, noBackslash]
        rw [if_neg (by decide), if_pos trivial, noBackslash_mixed]; rfl

/-- **C59**: for a text in which no backslash stands outside single quotes, escaping its colons succeeds,
and the shell reads the result as the same words with a backslash before every colon. -/
theorem C59_action_partial (text : Str) (words : List Str) (h : noBackslash .word text = true)
    (hw : Posix.words text = some words) :
    ∃ act, escapeColonQuoted text = .ok act ∧ Posix.words act = some (words.map escapeColon) := by
  unfold escapeColonQuoted Posix.words at *
  by_cases hc : ':' ∈ text
  · rw [if_pos hc]
    exact (escapeGo_read text).1 words h hw
  · rw [if_neg hc]
    refine ⟨_, rfl, ?_⟩
    rw [hw]
    congr 1
    symm
    rw [List.map_congr_left (g := id), List.map_id]
    intro w hw'
    apply escapeColon_id
    intro hm
    rcases read_chars text .gap [] words hw w hw' ':' hm with q | q | q
    · cases q
    · exact hc q
    · cases q

theorem action_word {action t : Str} (h : noBackslash .word action = true)
    (hb : ∀ c, action.head? = some c → Posix.blank c = false) (hw : Posix.words action = some [t]) :
    ∃ act, escapeColonQuoted action = .ok act ∧ ∀ acc, Posix.read .word acc act = some [acc ++ escapeColon t] := by
  have hne : action ≠ [] := by rintro rfl; simp [Posix.words, Posix.read] at hw
  have hr : Posix.read .word [] action = some [t] := by rw [← read_gap_word hne hb]; exact hw
  unfold escapeColonQuoted
  by_cases hc : ':' ∈ action
  · rw [if_pos hc]
    obtain ⟨act, e, r⟩ := (escapeGo_read action).2.1 [] [t] h hr
    exact ⟨act, e, fun acc => read_one acc r⟩
  · rw [if_neg hc]
    refine ⟨_, rfl, fun acc => read_one acc ?_⟩
    rw [hr, escapeColon_id]
    intro hm
    rcases read_chars action .word [] [t] hr t (by simp) ':' hm with q | q | q
    · cases q
    · exact hc q
    · cases q

/-- **C59 is false in general**: the choices `$x` and `y:z` are written so that Zsh expands `$x`. In
double quotes, the text that keeps `$` from the shell is dropped with its backslash. -/
theorem C59_false :
    quote (S "('$x' 'y:z')") = S "\"('\\$x' 'y:z')\"" ∧
    Posix.words (S "\"('\\$x' 'y:z')\"") = some [S "('$x' 'y:z')"] ∧
    escapeColonQuoted (S "\"('\\$x' 'y:z')\"") = .ok (S "\"('$x' 'y\\\\:z')\"") ∧
    Posix.words (S "\"('$x' 'y\\\\:z')\"") = none := by
  refine ⟨by decide, by decide, rfl, by decide⟩

/-- Actions that meet the conditions. -/
theorem C59_example :
    noBackslash .word (quote (S "('a b' 'y:z')")) = true ∧
    Posix.words (quote (S "('a b' 'y:z')")) = some [S "('a b' 'y:z')"] ∧
    noBackslash .word (quote (S "(a\\b y:z)")) = true ∧
    escapeColonQuoted (quote (S "('a b' 'y:z')")) = .ok (S "\"('a b' 'y\\\\:z')\"") := by
  refine ⟨by decide, by decide, by decide, rfl⟩

/-- **C59**, for the quoted actions of the generator: the escaped action is read as the action with a
backslash before every colon, unless the action has a single quote, no double quote and one of the
characters dollar, backtick and backslash. -/
theorem C59_quoted_partial (x : Str) (h : '\'' ∈ x → '"' ∉ x → '$' ∉ x ∧ '`' ∉ x ∧ '\\' ∉ x) :
    ∃ act, escapeColonQuoted (quote x) = .ok act ∧ Posix.words act = some [escapeColon x] := by
  have := C59_action_partial (quote x) [x] (noBackslash_quote x h) (by
    have := read_quote_gap x []
    simpa [Posix.read, Posix.words] using this)
  simpa using this

/-! ## C53: option specs -/

/-- An option string of letters, digits, dashes, underscores and dots that begins with a dash, has
another character, and does not end in a dash. -/
def SimpleOption (s : Str) : Prop :=
  s.head? = some '-' ∧ 2 ≤ s.length ∧ s.getLast? ≠ some '-' ∧
    ∀ c ∈ s, c.isAlphanum = true ∨ c = '-' ∨ c = '_' ∨ c = '.'

/-- Where the argument of an option stands that takes one. Short options have two characters. -/
def argPlace (o : ZshOption) (s : Str) : Place :=
  if o.complete = false then .next
  else if o.optionalArg = true then (if s.length = 2 then .same else .equals)
  else if s.length = 2 then .sameOrNext
  else match o.longSep with
    | .both => .equalsOrNext
    | .equals => .equals
    | _ => .next

theorem plain_char {c : Char} (h : c.isAlphanum = true ∨ c = '-' ∨ c = '_' ∨ c = '.') :
    isSafeChar c = true ∧ c ≠ ' ' ∧ c ≠ ')' ∧ c ≠ ':' ∧ c ≠ '[' ∧ c ≠ '=' ∧ c ≠ '+' := by
  rcases h with h | h | h | h
  · refine ⟨by simp [isSafeChar, isAsciiAlnum, h], ?_, ?_, ?_, ?_, ?_, ?_⟩ <;> (rintro rfl; revert h; decide)
  all_goals subst h; decide

theorem readList_word (x : Str) (hx : ' ' ∉ x ∧ ')' ∉ x) : ∀ (w rest : Str),
    readList w (x ++ rest) = readList (w ++ x) rest := by
  induction x with
  | nil => intro w rest; simp
  | cons c cs ih =>
    intro w rest
    simp only [List.mem_cons, not_or] at hx
    simp only [List.cons_append, readList]
    rw [if_neg (Ne.symm hx.2.1), if_neg (Ne.symm hx.1.1), ih ⟨hx.1.2, hx.2.2⟩]
    simp

theorem readList_join : ∀ (xs : List Str) (rest : Str), (∀ x ∈ xs, x ≠ [] ∧ ' ' ∉ x ∧ ')' ∉ x) →
    readList [] (joinWith [' '] xs ++ ')' :: rest) = some (xs, rest)
  | [], rest, _ => by simp [joinWith, readList, word]
  | [x], rest, h => by
    have hx := h x (by simp)
    simp only [joinWith]
    rw [readList_word x hx.2]
    simp [readList, word, hx.1]
  | x :: y :: ys, rest, h => by
    have hx := h x (by simp)
    simp only [joinWith, List.append_assoc]
    rw [readList_word x hx.2]
    simp only [List.cons_append, List.nil_append, readList]
    have ih := readList_join (y :: ys) rest (fun z hz => h z (List.mem_cons_of_mem _ hz))
    rw [if_neg (by decide), if_pos trivial, ih]
    simp [word, hx.1]

theorem readName_name (n rest : Str) (h : '[' ∉ n ∧ ':' ∉ n)
    (hr : rest = [] ∨ (∃ r, rest = '[' :: r) ∨ ∃ r, rest = ':' :: r) : readName (n ++ rest) = (n, rest) := by
  induction n with
  | nil => rcases hr with rfl | ⟨r, rfl⟩ | ⟨r, rfl⟩ <;> simp [readName]
  | cons c cs ih =>
    simp only [List.mem_cons, not_or] at h
    simp only [List.cons_append, readName]
    rw [if_neg (fun q => q.elim (fun q => h.1.1 q.symm) (fun q => h.2.1 q.symm)), ih ⟨h.1.2, h.2.2⟩]

theorem splitSuffix_plain {s : Str} (h : SimpleOption s) :
    splitSuffix s = (s, .next) ∧ splitSuffix (s ++ ['+']) = (s, .sameOrNext) ∧
    splitSuffix (s ++ ['-']) = (s, .same) ∧ splitSuffix (s ++ ['=']) = (s, .equalsOrNext) ∧
    splitSuffix (s ++ ['=', '-']) = (s, .equals) := by
  obtain ⟨_, _, h3, h4⟩ := h
  have hne : ∀ c, s.reverse.head? = some c → c ≠ '-' ∧ c ≠ '=' ∧ c ≠ '+' := by
    intro c hc
    rw [List.head?_reverse] at hc
    have hm : c ∈ s := List.mem_of_getLast? hc
    have := plain_char (h4 c hm)
    exact ⟨by rintro rfl; exact h3 hc, this.2.2.2.2.2.1, this.2.2.2.2.2.2⟩
  have hcase : s.reverse = [] ∨ ∃ c r, s.reverse = c :: r ∧ c ≠ '-' ∧ c ≠ '=' ∧ c ≠ '+' := by
    cases hr : s.reverse with
    | nil => exact Or.inl rfl
    | cons c r => exact Or.inr ⟨c, r, rfl, hne c (by simp [hr])⟩
  have hs : s = s.reverse.reverse := by simp
  rcases hcase with hr | ⟨c, r, hr, c1, c2, c3⟩
  · rw [hr] at hs; subst hs; decide
  · rw [hr] at hs
    refine ⟨?_, ?_, ?_, ?_, ?_⟩
    · unfold splitSuffix; rw [hr]; split <;> simp_all
    · unfold splitSuffix
      rw [List.reverse_append, hr]; simp [hs]
    · unfold splitSuffix
      rw [List.reverse_append, hr]
      simp only [List.reverse_cons, List.reverse_nil, List.nil_append, List.singleton_append]
      split
      · simp_all
      · simp_all
      · simp_all
      · simp_all
      · simp_all
    · unfold splitSuffix
      rw [List.reverse_append, hr]; simp [hs]
    · unfold splitSuffix
      rw [List.reverse_append, hr]; simp [hs]

theorem readMessage_end (t : Str) (h : BackslashPaired t) : readMessage (escapeColon t) = (t, none) := by
  induction t using BackslashPaired.induct with
  | case1 => rfl
  | case2 => exact absurd h (by simp [BackslashPaired])
  | case3 c r ih =>
    simp only [BackslashPaired] at h
    rw [escapeColon_cons, if_neg (by decide), escapeColon_cons, if_neg h.1]
    simp only [List.cons_append, List.nil_append]
    rw [readMessage_pair _ h.1, ih h.2]
  | case4 c r hne hne2 ih =>
    have h2 : c ≠ '\\' := backslashBefore_other hne hne2
    have e : BackslashPaired (c :: r) = BackslashPaired r := by
      rw [BackslashPaired.eq_def]; split <;> simp_all
    rw [e] at h
    rw [escapeColon_cons]
    by_cases hc : c = ':'
    · subst hc
      simp only [if_true, List.cons_append, List.nil_append, readMessage]
      rw [ih h]
    · rw [if_neg hc]
      simp only [List.cons_append, List.nil_append]
      rw [readMessage_other _ hc h2, ih h]

theorem readArgument_escaped {m t : Str} (hm : BackslashPaired m) (ht : BackslashPaired t) :
    readArgument (escapeColon m ++ ':' :: escapeColon t) = some (m, t) := by
  unfold readArgument
  rw [(C52_metavar_partial m (escapeColon t)).mpr hm]
  simp only
  rw [readMessage_end t ht]

/-- An escaped text does not begin with a colon. -/
theorem escapeColon_head (m : Str) (hm : m ≠ []) : ∃ c r, escapeColon m = c :: r ∧ c ≠ ':' := by
  cases m with
  | nil => exact absurd rfl hm
  | cons c r =>
    rw [escapeColon_cons]
    by_cases hc : c = ':'
    · rw [if_pos hc]; exact ⟨_, _, rfl, by decide⟩
    · rw [if_neg hc]; exact ⟨_, _, rfl, hc⟩

theorem readArguments_escaped {m t : Str} (hne : m ≠ []) (hm : BackslashPaired m) (ht : BackslashPaired t) :
    readArguments (':' :: (escapeColon m ++ ':' :: escapeColon t)) = some (false, some (m, t)) := by
  obtain ⟨c, r, e, hc⟩ := escapeColon_head m hne
  have h := readArgument_escaped hm ht
  rw [e] at h ⊢
  simp only [List.cons_append] at h ⊢
  rw [readArguments.eq_def]
  split
  · simp_all
  · rename_i h1; simp at h1; exact absurd h1.1 hc
  · rename_i h1; simp at h1; rw [← h1, h]; rfl
  · simp_all

/-- The suffix of an option string in the spec. -/
def suffixOf : Place → Str
  | .next => []
  | .sameOrNext => ['+']
  | .same => ['-']
  | .equalsOrNext => ['=']
  | .equals => ['=', '-']

theorem splitSuffix_suffix {s : Str} (h : SimpleOption s) (p : Place) :
    splitSuffix (s ++ suffixOf p) = (s, p) := by
  obtain ⟨h1, h2, h3, h4, h5⟩ := splitSuffix_plain h
  cases p <;> simp only [suffixOf, List.append_nil] <;> assumption

theorem opts_suffix (o : ZshOption) (h : o.complete = true → o.optionalArg = true ∨ o.longSep ≠ .inherit) :
    o.opts = .ok (o.optionStrings.map (fun s => s ++ suffixOf (argPlace o s))) := by
  unfold ZshOption.opts argPlace
  cases hc : o.complete with
  | false => simp [suffixOf]
  | true =>
    cases ho : o.optionalArg with
    | true =>
      simp only [Bool.and_self, if_true]
      congr 1
      apply List.map_congr_left
      intro s _
      by_cases hl : s.length = 2 <;> simp [hl, suffixOf]
    | false =>
      simp only [Bool.and_false, Bool.false_eq_true, if_false, if_true]
      rcases h hc with h | h
      · rw [ho] at h; cases h
      · cases hs : o.longSep with
        | inherit => exact absurd hs h
        | both => 
          simp only
          congr 1
          apply List.map_congr_left
          intro s _
          by_cases hl : s.length = 2 <;> simp [hl, suffixOf]
        | equals => 
          simp only
          congr 1
          apply List.map_congr_left
          intro s _
          by_cases hl : s.length = 2 <;> simp [hl, suffixOf]
        | space => 
          simp only
          congr 1
          apply List.map_congr_left
          intro s _
          by_cases hl : s.length = 2 <;> simp [hl, suffixOf]

/-- The exclusion list, as text. -/
def exclusionText (o : ZshOption) : Str :=
  if o.notOptions.isEmpty then [] else '(' :: (joinWith [' '] (uniq o.notOptions) ++ [')'])

/-- What the shell reads of the front of a spec. -/
def frontWord (o : ZshOption) : Str :=
  (if o.hidden then ['!'] else []) ++ exclusionText o ++ (if o.repeatable then ['*'] else [])

theorem front_read (o : ZshOption) (acc t : Str) :
    Posix.read .word acc (o.front ++ t) = Posix.read .word (acc ++ frontWord o) t := by
  have hq : ∀ (c : Char) (acc t : Str), c ≠ '\'' →
      Posix.read .word acc (['\'', c, '\''] ++ t) = Posix.read .word (acc ++ [c]) t := by
    intro c acc t hc
    simp [Posix.read, Posix.blank, hc]
  unfold ZshOption.front frontWord exclusionText
  simp only [List.append_assoc]
  have h1 : ∀ acc t, Posix.read .word acc ((if o.hidden = true then S "'!'" else []) ++ t) =
      Posix.read .word (acc ++ if o.hidden = true then ['!'] else []) t := by
    intro acc t
    cases o.hidden
    · simp
    · exact hq '!' acc t (by decide)
  have h3 : ∀ acc t, Posix.read .word acc ((if o.repeatable = true then S "'*'" else []) ++ t) =
      Posix.read .word (acc ++ if o.repeatable = true then ['*'] else []) t := by
    intro acc t
    cases o.repeatable
    · simp
    · exact hq '*' acc t (by decide)
  rw [h1]
  cases o.notOptions.isEmpty with
  | true => simp only [if_true, List.nil_append]; rw [h3]; simp
  | false =>
    simp only [Bool.false_eq_true, if_false]
    rw [read_quote_word, h3]
    simp

theorem front_head (o : ZshOption) (c : Char) (h : o.front.head? = some c) : Posix.blank c = false := by
  unfold ZshOption.front at h
  cases hh : o.hidden with
  | true => rw [hh] at h; simp [S] at h; subst h; decide
  | false =>
    rw [hh] at h
    simp only [Bool.false_eq_true, if_false, List.nil_append] at h
    cases hn : o.notOptions.isEmpty with
    | true =>
      rw [hn] at h
      cases hr : o.repeatable with
      | true => rw [hr] at h; simp [S] at h; subst h; decide
      | false => rw [hr] at h; simp at h
    | false =>
      rw [hn] at h
      simp only [Bool.false_eq_true, if_false] at h
      have hne := quote_not_nil (['('] ++ joinWith [' '] (uniq o.notOptions) ++ [')'])
      rw [List.head?_append] at h
      cases hq : (quote (['('] ++ joinWith [' '] (uniq o.notOptions) ++ [')'])).head? with
      | none => exact absurd (List.head?_eq_none_iff.mp hq) hne
      | some d =>
        rw [hq] at h
        simp at h
        exact quote_first _ c (by rw [hq, h])

/-- The front of a spec is complete by itself. -/
theorem front_words (o : ZshOption) : (Posix.words o.front).isSome = true := by
  by_cases hne : o.front = []
  · rw [hne]; rfl
  · unfold Posix.words
    rw [read_gap_word hne (front_head o)]
    have := front_read o [] []
    rw [List.append_nil] at this
    rw [this]; rfl

/-- What the shell reads of the description. -/
def descriptionWord : Option Str → Str
  | none => []
  | some d => '[' :: (escapeColon (escapeSquareBrackets d) ++ [']'])

/-- What the shell reads of the back of a spec. -/
def backWord (o : ZshOption) (t : Str) : Str :=
  descriptionWord o.description ++
  (if o.complete then ':' :: (escapeColon (o.metavar.getD [' ']) ++ ':' :: escapeColon t) else [])

/-- The conditions on the texts of an option: the description and the metavar can be read back, the metavar
is not empty, and the action is a word `t` that the shell reads, does not begin with a blank, and has no
backslash outside single quotes. -/
structure ReadableTexts (o : ZshOption) (t : Str) : Prop where
  description : ∀ d, o.description = some d → BackslashBefore d
  metavar : o.complete = true → ∀ m, o.metavar = some m → m ≠ [] ∧ BackslashPaired m
  action : o.complete = true → noBackslash .word o.action = true ∧ Posix.words o.action = some [t] ∧
    (∀ c, o.action.head? = some c → Posix.blank c = false) ∧ BackslashPaired t

theorem back_read (o : ZshOption) (t : Str) (h : ReadableTexts o t) :
    ∃ b, o.back = .ok b ∧ ∀ acc, Posix.read .word acc b = some [acc ++ backWord o t] := by
  have hd : ∀ (acc r : Str), Posix.read .word acc (descriptionText o.description ++ r) =
      Posix.read .word (acc ++ descriptionWord o.description) r := by
    intro acc r
    cases o.description with
    | none => simp [descriptionText, descriptionWord]
    | some d => simp only [descriptionText, descriptionWord]; rw [read_quote_word]; simp
  unfold ZshOption.back backWord
  cases hc : o.complete with
  | false =>
    refine ⟨_, rfl, fun acc => ?_⟩
    have := hd acc []
    rw [List.append_nil] at this
    rw [this]; simp [Posix.read]
  | true =>
    obtain ⟨a1, a2, a3, _⟩ := h.action hc
    obtain ⟨act, e, hr⟩ := action_word a1 a3 a2
    rw [e]
    refine ⟨_, rfl, fun acc => ?_⟩
    simp only [List.append_assoc]
    rw [hd]
    have hcolon : ∀ (acc r : Str), Posix.read .word acc ([':'] ++ r) = Posix.read .word (acc ++ [':']) r :=
      fun acc r => read_word_safe [':'] r acc (by decide)
    rw [hcolon, read_quote_word, hcolon, hr]
    simp

theorem spec_word (o : ZshOption) (t : Str) (h : ReadableTexts o t) (n : Str) (hne : n ≠ [])
    (hn : ∀ c ∈ n, isSafeChar c = true) {b : Str} (hb : o.back = .ok b) :
    Posix.words (o.front ++ n ++ b) = some [frontWord o ++ n ++ backWord o t] := by
  obtain ⟨b', e, hr⟩ := back_read o t h
  rw [hb] at e
  cases e
  have hbl : ∀ c, (o.front ++ n ++ b).head? = some c → Posix.blank c = false := by
    intro c hc
    cases hf : o.front with
    | cons d ds =>
      rw [hf] at hc; simp at hc; subst hc
      exact front_head o d (by rw [hf]; rfl)
    | nil =>
      rw [hf] at hc
      cases n with
      | nil => exact absurd rfl hne
      | cons d ds =>
        simp at hc; subst hc
        exact (safe_not_special (hn d (by simp))).1
  unfold Posix.words
  rw [read_gap_word (by simp [hne]) hbl, List.append_assoc, front_read, read_word_safe n b _ hn, hr]
  simp

theorem read_back {o : ZshOption} {t : Str} (h : ReadableTexts o t) :
    readRest (backWord o t) = some (o.description, false,
      if o.complete then some (o.metavar.getD [' '], t) else none) := by
  have harg : readArguments (if o.complete then ':' :: (escapeColon (o.metavar.getD [' ']) ++ ':' :: escapeColon t)
      else []) = some (false, if o.complete then some (o.metavar.getD [' '], t) else none) := by
    cases hc : o.complete with
    | false => rfl
    | true =>
      simp only [if_true]
      have hm : o.metavar.getD [' '] ≠ [] ∧ BackslashPaired (o.metavar.getD [' ']) := by
        cases hm : o.metavar with
        | none => exact ⟨by simp, by simp [BackslashPaired]⟩
        | some m => exact h.metavar hc m hm
      exact readArguments_escaped hm.1 hm.2 (h.action hc).2.2.2
  unfold backWord
  cases hd : o.description with
  | none =>
    simp only [descriptionWord, List.nil_append]
    rw [readRest.eq_def]
    split
    · rename_i r he
      cases hc : o.complete <;> rw [hc] at he <;> simp at he
    · rw [harg]; rfl
  | some d =>
    simp only [descriptionWord, List.cons_append, List.append_assoc, List.nil_append, readRest]
    rw [(C52_description_partial d _).mpr (h.description d hd)]
    simp only [Option.bind_some]
    rw [harg]; rfl

theorem backWord_start (o : ZshOption) (t : Str) :
    backWord o t = [] ∨ (∃ r, backWord o t = '[' :: r) ∨ ∃ r, backWord o t = ':' :: r := by
  unfold backWord
  cases o.description with
  | some d => exact Or.inr (Or.inl ⟨_, rfl⟩)
  | none =>
    cases o.complete with
    | false => exact Or.inl rfl
    | true => exact Or.inr (Or.inr ⟨_, rfl⟩)

/-- The option strings that an option excludes. -/
def exclusions (o : ZshOption) : List Str :=
  if o.final then [S "-", S "*"] else uniq o.notOptions

theorem readOption_spec {o : ZshOption} {t s : Str} (h : ReadableTexts o t) (hs : SimpleOption s) (hidden : Bool)
    (ex : List Str) (p : Place) :
    readOption hidden ex ((if o.repeatable then ['*'] else []) ++ (s ++ suffixOf p ++ backWord o t)) =
      some ⟨hidden, ex, o.repeatable, s, p, o.description, false,
        if o.complete then some (o.metavar.getD [' '], t) else none⟩ := by
  have hn : readName (s ++ suffixOf p ++ backWord o t) = (s ++ suffixOf p, backWord o t) := by
    apply readName_name _ _ _ (backWord_start o t)
    constructor
    · intro hm
      rcases List.mem_append.mp hm with q | q
      · exact (plain_char (hs.2.2.2 _ q)).2.2.2.2.1 rfl
      · cases p <;> simp [suffixOf] at q
    · intro hm
      rcases List.mem_append.mp hm with q | q
      · exact (plain_char (hs.2.2.2 _ q)).2.2.2.1 rfl
      · cases p <;> simp [suffixOf] at q
  have key : ∀ rep : Bool, (match readName (s ++ suffixOf p ++ backWord o t) with
      | (n, r) => match splitSuffix n with
        | (name, place) => (readRest r).map (fun (e, op, a) => (⟨hidden, ex, rep, name, place, e, op, a⟩ : ZshArgs.Spec))) =
      some ⟨hidden, ex, rep, s, p, o.description, false,
        if o.complete then some (o.metavar.getD [' '], t) else none⟩ := by
    intro rep
    rw [hn]
    simp only
    rw [splitSuffix_suffix hs]
    simp only
    rw [read_back h]; rfl
  obtain ⟨r, hr⟩ : ∃ r, s = '-' :: r := by
    cases s with
    | nil => exact absurd hs.1 (by simp)
    | cons c r => have := hs.1; simp at this; subst this; exact ⟨r, rfl⟩
  unfold readOption
  cases hrep : o.repeatable with
  | true => simp only [if_true, List.cons_append, List.nil_append]; exact key true
  | false =>
    simp only [Bool.false_eq_true, if_false, List.nil_append]
    have := key false
    rw [hr] at this ⊢
    simp only [List.cons_append] at this ⊢
    exact this

theorem exclusion_mem (o : ZshOption) (hf : o.final = false) (hp : ∀ s ∈ o.optionStrings ++ o.conflicting, SimpleOption s)
    (x : Str) : x ∈ o.notOptions ↔ x ∈ o.conflicting ∨ (x ∈ o.optionStrings ∧ o.repeatable = false) := by
  have he : ∀ l : List Str, (∀ s ∈ l, SimpleOption s) → ∀ x, x ∈ (sortStrs l).map escapeColon ↔ x ∈ l := by
    intro l hl x
    have e : (sortStrs l).map escapeColon = sortStrs l := by
      rw [List.map_congr_left (g := id), List.map_id]
      intro s hs
      apply escapeColon_id
      intro hm
      exact (plain_char ((hl s (mem_sortStrs.mp hs)).2.2.2 _ hm)).2.2.2.1 rfl
    rw [e]; exact mem_sortStrs
  unfold ZshOption.notOptions
  rw [if_neg (by simp [hf]), List.mem_append,
    he o.conflicting (fun s hs => hp s (List.mem_append_right _ hs))]
  cases o.repeatable with
  | true => simp
  | false =>
    simp only [Bool.false_eq_true, if_false, and_true]
    rw [he o.optionStrings (fun s hs => hp s (List.mem_append_left _ hs))]

theorem simple_token {s : Str} (h : SimpleOption s) : s ≠ [] ∧ ' ' ∉ s ∧ ')' ∉ s := by
  refine ⟨?_, ?_, ?_⟩
  · rintro rfl; exact absurd h.1 (by simp)
  · intro hm; exact (plain_char (h.2.2.2 _ hm)).2.1 rfl
  · intro hm; exact (plain_char (h.2.2.2 _ hm)).2.2.1 rfl

theorem readList_exclusions (o : ZshOption) (hp : ∀ s ∈ o.optionStrings ++ o.conflicting, SimpleOption s)
    (rest : Str) : readList [] (joinWith [' '] (uniq o.notOptions) ++ ')' :: rest) = some (exclusions o, rest) := by
  unfold exclusions
  cases hf : o.final with
  | true =>
    have e : uniq o.notOptions = [S "- *"] := by
      unfold ZshOption.notOptions
      rw [hf, if_pos rfl]; decide
    rw [e]
    simp [joinWith, S, readList, word]
  | false =>
    apply readList_join
    intro x hx
    have hx := (exclusion_mem o hf hp x).mp ((C40_uniq_mem _ _).mp hx)
    rcases hx with q | q
    · exact simple_token (hp x (List.mem_append_right _ q))
    · exact simple_token (hp x (List.mem_append_left _ q.1))

/-- The text that the shell reads for one option string is a spec with these contents. -/
theorem read_spec {o : ZshOption} {t s : Str} (h : ReadableTexts o t)
    (hp : ∀ s ∈ o.optionStrings ++ o.conflicting, SimpleOption s) (hs : SimpleOption s) (p : Place) :
    ZshArgs.read (frontWord o ++ (s ++ suffixOf p) ++ backWord o t) =
      some ⟨o.hidden, exclusions o, o.repeatable, s, p, o.description, false,
        if o.complete then some (o.metavar.getD [' '], t) else none⟩ := by
  have hro := fun ex => readOption_spec h hs o.hidden ex p
  have key : ∀ rest : Str, rest = exclusionText o ++ ((if o.repeatable then ['*'] else []) ++
      (s ++ suffixOf p ++ backWord o t)) →
      readListed o.hidden rest =
      some ⟨o.hidden, exclusions o, o.repeatable, s, p, o.description, false,
        if o.complete then some (o.metavar.getD [' '], t) else none⟩ := by
    intro rest hrest
    unfold exclusionText at hrest
    cases hn : o.notOptions.isEmpty with
    | false =>
      rw [hn] at hrest
      simp only [Bool.false_eq_true, if_false, List.cons_append, List.append_assoc, List.nil_append] at hrest
      rw [hrest, readListed, readList_exclusions o hp]
      simp only [Option.bind_some]
      have := hro (exclusions o)
      rw [List.append_assoc] at this
      exact this
    | true =>
      rw [hn] at hrest
      simp only [if_true, List.nil_append] at hrest
      have he : exclusions o = [] := by
        have hnil := List.isEmpty_iff.mp hn
        unfold exclusions
        cases hf : o.final with
        | true => unfold ZshOption.notOptions at hnil; rw [hf] at hnil; simp at hnil
        | false => rw [hnil]; rfl
      rw [he]
      have hr0 := hro []
      rw [← hrest] at hr0
      obtain ⟨r, hr⟩ : ∃ r, s = '-' :: r := by
        cases s with
        | nil => exact absurd hs.1 (by simp)
        | cons c r => have := hs.1; simp at this; subst this; exact ⟨r, rfl⟩
      cases hrep : o.repeatable with
      | true =>
        rw [hrep] at hrest hr0
        simp only [if_true, List.cons_append] at hrest
        rw [hrest] at hr0 ⊢
        rw [readListed]
        · exact hr0
        · simp
      | false =>
        rw [hrep] at hrest hr0
        simp only [Bool.false_eq_true, if_false, List.nil_append, hr, List.cons_append] at hrest
        rw [hrest] at hr0 ⊢
        rw [hr] at hr0 ⊢
        rw [readListed]
        · exact hr0
        · simp
  have hk := key _ rfl
  unfold frontWord
  simp only [List.append_assoc] at hk ⊢
  cases hh : o.hidden with
  | true =>
    rw [hh] at hk
    simp only [if_true, List.cons_append, List.nil_append, ZshArgs.read]
    exact hk
  | false =>
    rw [hh] at hk
    simp only [Bool.false_eq_true, if_false, List.nil_append]
    rw [ZshArgs.read]
    · exact hk
    · intro r hexcl
      unfold exclusionText at hexcl
      cases hn : o.notOptions.isEmpty with
      | false => rw [hn] at hexcl; simp at hexcl
      | true =>
        rw [hn] at hexcl
        cases hrep : o.repeatable with
        | true => rw [hrep] at hexcl; simp at hexcl
        | false =>
          rw [hrep] at hexcl
          cases s with
          | nil => exact absurd hs.1 (by simp)
          | cons c r => have := hs.1; simp at this; subst this; simp at hexcl

theorem joinWith_intercalate (sep : Str) : ∀ l : List Str, joinWith sep l = List.intercalate sep l
  | [] => rfl
  | [x] => by simp [joinWith, List.intercalate, List.intersperse]
  | x :: y :: ys => by
    have := joinWith_intercalate sep (y :: ys)
    simp only [joinWith, List.intercalate, List.intersperse, List.flatten_cons] at this ⊢
    rw [this]
    simp

/-- **C53**: for simple option strings and texts that can be read back, the spec of an option expands to
one word for each option string, and Zsh reads of the word: hidden or not; the exclusion list; `*` exactly
for repeatable options; the option string; where the argument stands; the description; and the metavar
with the action, if the option takes an argument. The exclusion list of a final option is `- *`, that is
everything; otherwise it has the conflicting option strings and, unless the option is repeatable, its own,
and no others, each once. -/
theorem C53_spec_partial (o : ZshOption) (t : Str) (h : ReadableTexts o t) (hne : o.optionStrings ≠ [])
    (hp : ∀ s ∈ o.optionStrings ++ o.conflicting, SimpleOption s)
    (hsep : o.complete = true → o.optionalArg = true ∨ o.longSep ≠ .inherit) :
    ∃ text words excl, makeOptionSpec o = .ok text ∧ Expands text words ∧
      words.map ZshArgs.read = o.optionStrings.map (fun s => some
        { hidden := o.hidden, excludes := excl, repeated := o.repeatable, name := s, place := argPlace o s,
          explanation := o.description, isOptional := false,
          argument := if o.complete then some (o.metavar.getD [' '], t) else none }) ∧
      (o.final = true → excl = [S "-", S "*"]) ∧
      (o.final = false → excl.Nodup ∧
        ∀ x, x ∈ excl ↔ x ∈ o.conflicting ∨ (x ∈ o.optionStrings ∧ o.repeatable = false)) := by
  obtain ⟨b, hb, _⟩ := back_read o t h
  have hsafe : ∀ s ∈ o.optionStrings, ∀ p : Place, s ++ suffixOf p ≠ [] ∧
      ∀ c ∈ s ++ suffixOf p, isSafeChar c = true := by
    intro s hs p
    have hss := hp s (List.mem_append_left _ hs)
    refine ⟨by simp [(simple_token hss).1], ?_⟩
    intro c hc
    rcases List.mem_append.mp hc with q | q
    · exact (plain_char (hss.2.2.2 c q)).1
    · cases p <;> simp [suffixOf] at q
      · subst q; decide
      · subst q; decide
      · subst q; decide
      · rcases q with rfl | rfl <;> decide
  have hword : ∀ s ∈ o.optionStrings, Posix.words (o.front ++ (s ++ suffixOf (argPlace o s)) ++ b) =
      some [frontWord o ++ (s ++ suffixOf (argPlace o s)) ++ backWord o t] := by
    intro s hs
    obtain ⟨h1, h2⟩ := hsafe s hs (argPlace o s)
    exact spec_word o t h _ h1 h2 hb
  have hread : ∀ s ∈ o.optionStrings, ZshArgs.read (frontWord o ++ (s ++ suffixOf (argPlace o s)) ++ backWord o t) =
      some ⟨o.hidden, exclusions o, o.repeatable, s, argPlace o s, o.description, false,
        if o.complete then some (o.metavar.getD [' '], t) else none⟩ :=
    fun s hs => read_spec h hp (hp s (List.mem_append_left _ hs)) _
  have hex : (o.final = true → exclusions o = [S "-", S "*"]) ∧
      (o.final = false → (exclusions o).Nodup ∧
        ∀ x, x ∈ exclusions o ↔ x ∈ o.conflicting ∨ (x ∈ o.optionStrings ∧ o.repeatable = false)) := by
    unfold exclusions
    refine ⟨fun hf => by rw [if_pos hf], fun hf => ?_⟩
    rw [if_neg (by simp [hf])]
    exact ⟨C40_uniq_nodup _, fun x => by rw [C40_uniq_mem]; exact exclusion_mem o hf hp x⟩
  have ho := opts_suffix o hsep
  match hl : o.optionStrings with
  | [] => exact absurd hl hne
  | [s] =>
    have hs : s ∈ o.optionStrings := by rw [hl]; simp
    refine ⟨o.front ++ (s ++ suffixOf (argPlace o s)) ++ b, [frontWord o ++ (s ++ suffixOf (argPlace o s)) ++ backWord o t],
      exclusions o, ?_, .one _ (hword s hs), ?_, hex.1, by rw [← hl]; exact hex.2⟩
    · unfold makeOptionSpec
      rw [ho, hl, hb]; rfl
    · simp only [List.map_cons, List.map_nil]; rw [hread s hs]
  | s1 :: s2 :: ss =>
    refine ⟨o.front ++ (['{'] ++ joinWith [','] (o.optionStrings.map (fun s => s ++ suffixOf (argPlace o s))) ++ ['}']) ++ b,
      o.optionStrings.map (fun s => frontWord o ++ (s ++ suffixOf (argPlace o s)) ++ backWord o t),
      exclusions o, ?_, ?_, ?_, hex.1, by rw [← hl]; exact hex.2⟩
    · unfold makeOptionSpec
      rw [ho, hl, hb]; rfl
    · have := Expands.braces (text := o.front ++ (['{'] ++ joinWith [','] (o.optionStrings.map (fun s => s ++ suffixOf (argPlace o s))) ++ ['}']) ++ b)
        o.front b (o.optionStrings.map (fun s => s ++ suffixOf (argPlace o s)))
        (fun a => frontWord o ++ a ++ backWord o t)
        (by rw [joinWith_intercalate]; simp) (by rw [hl]; simp) (front_words o)
        (by
          intro a ha c hc
          obtain ⟨s, hs, rfl⟩ := List.mem_map.mp ha
          rcases List.mem_append.mp hc with q | q
          · rcases (hp s (List.mem_append_left _ hs)).2.2.2 c q with q | q | q | q
            · exact Or.inl q
            all_goals subst q; exact Or.inr (by simp)
          · right
            generalize argPlace o s = p at q
            cases p <;> simp [suffixOf] at q
            · subst q; simp
            · subst q; simp
            · subst q; simp
            · rcases q with rfl | rfl <;> simp)
        (by
          intro a ha
          obtain ⟨s, hs, rfl⟩ := List.mem_map.mp ha
          exact hword s hs)
      rw [List.map_map] at this
      exact this
    · rw [← hl, List.map_map]
      apply List.map_congr_left
      intro s hs
      exact hread s hs

/-- The arguments of the spec of an option of a command: its attributes, and the option strings of the
other options of the command that share a group with it. -/
theorem zshOption_spec (options : List Opt) (o : Opt) (ho : o ∈ options) (action : ZshAction) :
    ∃ z, zshOption options o action = .ok z ∧ z.optionStrings = o.strings ∧ z.description = o.help ∧
      z.complete = truthyList o.complete ∧ z.optionalArg = o.optionalArg ∧
      z.repeatable = decide (o.repeatable ≠ .val false) ∧ z.hidden = o.hidden ∧ z.final = o.final ∧
      z.metavar = o.metavar ∧ z.action = action.getD [] ∧ z.longSep = o.longSep ∧
      ∀ x, x ∈ z.conflicting ↔ ∃ other ∈ options, ShareGroup o other ∧ other.eqv o = false ∧ x ∈ other.strings := by
  obtain ⟨conf, hconf, _, h2, h3, h4⟩ := C17_conflicts options o ho
  unfold zshOption
  rw [hconf]
  refine ⟨_, rfl, rfl, rfl, rfl, rfl, rfl, rfl, rfl, rfl, rfl, rfl, fun x => ?_⟩
  simp only [List.mem_flatMap]
  constructor
  · rintro ⟨y, hy, hx⟩
    exact ⟨y, (h3 y hy).1, (h3 y hy).2, h2 y hy, hx⟩
  · rintro ⟨y, hy, hg, hne, hx⟩
    obtain ⟨z, hz, hzy⟩ := h4 y hy hg hne
    refine ⟨z, hz, ?_⟩
    have : z.strings = y.strings := by
      simp only [Opt.eqv, decide_eq_true_eq] at hzy
      rw [← hzy]
    rw [this]; exact hx

/-- **C53** for the options of a command: the spec excludes exactly the option strings of the other
options that share a group with the option and, unless the option may be repeated, its own. -/
theorem C53_option_partial (options : List Opt) (o : Opt) (ho : o ∈ options) (action t : Str)
    (hne : o.strings ≠ []) (hp : ∀ q ∈ options, ∀ s ∈ q.strings, SimpleOption s)
    (hd : ∀ d, o.help = some d → BackslashBefore d)
    (hm : ∀ m, o.metavar = some m → m ≠ [] ∧ BackslashPaired m)
    (ha : noBackslash .word action = true ∧ Posix.words action = some [t] ∧
      (∀ c, action.head? = some c → Posix.blank c = false) ∧ BackslashPaired t)
    (hsep : o.longSep ≠ .inherit) :
    ∃ z text words excl, zshOption options o (some action) = .ok z ∧ makeOptionSpec z = .ok text ∧ Expands text words ∧
      words.map ZshArgs.read = o.strings.map (fun s => some
        { hidden := o.hidden, excludes := excl, repeated := decide (o.repeatable ≠ .val false), name := s,
          place := argPlace z s, explanation := o.help, isOptional := false,
          argument := if truthyList o.complete then some (o.metavar.getD [' '], t) else none }) ∧
      (o.final = true → excl = [S "-", S "*"]) ∧
      (o.final = false → excl.Nodup ∧ ∀ x, x ∈ excl ↔
        (∃ other ∈ options, ShareGroup o other ∧ other.eqv o = false ∧ x ∈ other.strings) ∨
        (x ∈ o.strings ∧ o.repeatable = .val false)) := by
  obtain ⟨z, hz, e1, e2, e3, e4, e5, e6, e7, e8, e9, e10, hconf⟩ := zshOption_spec options o ho (some action)
  have hr : ReadableTexts z t := by
    refine ⟨fun d h => hd d (by rw [← e2]; exact h), fun _ m h => hm m (by rw [← e8]; exact h), fun _ => ?_⟩
    rw [e9]; exact ha
  have hp' : ∀ s ∈ z.optionStrings ++ z.conflicting, SimpleOption s := by
    intro s hs
    rcases List.mem_append.mp hs with q | q
    · rw [e1] at q; exact hp o ho s q
    · obtain ⟨other, h1, _, _, h2⟩ := (hconf s).mp q
      exact hp other h1 s h2
  obtain ⟨text, words, excl, h1, h2, h3, h4, h5⟩ := C53_spec_partial z t hr (by rw [e1]; exact hne) hp'
    (fun _ => Or.inr (by rw [e10]; exact hsep))
  refine ⟨z, text, words, excl, hz, h1, h2, ?_, ?_, ?_⟩
  · rw [h3, e1, e2, e3, e5, e6, e8]
  · rw [← e7]; exact h4
  · intro hf
    obtain ⟨n, hx⟩ := h5 (by rw [e7]; exact hf)
    refine ⟨n, fun x => ?_⟩
    rw [hx, hconf, e1, e5]
    simp

/-- A concrete command: two options of a group, the first with a description, a metavar with a colon and
choices with a colon. -/
def zshExampleOptions : List Opt :=
  [{ strings := [S "-o", S "--output"], help := some (S "Write to [file]: here"), metavar := some (S "file:x"),
     complete := some [.str (S "choices")], groups := some [S "g"], repeatable := .val false, longSep := .both },
   { strings := [S "--quiet"], groups := some [S "g"], repeatable := .val false, longSep := .both }]

/-- The spec of the first option. -/
theorem C53_example :
    (zshOption zshExampleOptions (zshExampleOptions.head (by decide)) (some (quote (S "(a:b c)"))) >>= makeOptionSpec) =
      .ok (S "'(--quiet --output -o)'{-o+,--output=}'[Write to \\[file\\]\\: here]':'file\\:x':'(a\\:b c)'") := by
  rfl

/-- The hypotheses of `C53_option_partial` hold for it. -/
theorem C53_example_hypotheses :
    (∀ q ∈ zshExampleOptions, ∀ s ∈ q.strings, SimpleOption s) ∧
    BackslashBefore (S "Write to [file]: here") ∧ BackslashPaired (S "file:x") ∧
    noBackslash .word (quote (S "(a:b c)")) = true ∧ Posix.words (quote (S "(a:b c)")) = some [S "(a:b c)"] ∧
    (∀ c, (quote (S "(a:b c)")).head? = some c → Posix.blank c = false) ∧ BackslashPaired (S "(a:b c)") := by
  refine ⟨?_, ?_, ?_, by decide, by decide, ?_, ?_⟩
  · simp [zshExampleOptions, SimpleOption, S]
  · simp [BackslashBefore, S]
  · simp [BackslashPaired, S]
  · intro c hc; exact quote_first _ c hc
  · simp [BackslashPaired, S]

/-- **C53 is false for an empty metavar**: two colons follow each other, so that Zsh takes the argument as
optional, the action as its message, and completes nothing. -/
theorem C53_empty_metavar :
    (makeOptionSpec { optionStrings := [S "--file"], repeatable := true, complete := true, metavar := some [],
                      action := S "_files" }) = .ok (S "'*'--file=:'':_files") ∧
    Posix.words (S "'*'--file=:'':_files") = some [S "*--file=::_files"] ∧
    ZshArgs.read (S "*--file=::_files") = some
      { hidden := false, excludes := [], repeated := true, name := S "--file", place := .equalsOrNext,
        explanation := none, isOptional := true, argument := some (S "_files", []) } := by
  refine ⟨rfl, by decide, by decide⟩

/-- **C53 is false for an option string that ends in a dash** (or in `+`, `=`): the end is read as a suffix. -/
theorem C53_dash_suffix :
    makeOptionSpec { optionStrings := [S "--"], repeatable := true } = .ok (S "'*'--") ∧
    (ZshArgs.read (S "*--")).map (·.name) = some (S "-") := by
  refine ⟨rfl, by decide⟩

/-! ## Positionals -/

theorem takeWhile_number (n r : Str) (h : ':' ∉ n) :
    (n ++ ':' :: r).takeWhile (· ≠ ':') = n ∧ (n ++ ':' :: r).dropWhile (· ≠ ':') = ':' :: r := by
  induction n with
  | nil => simp
  | cons c cs ih =>
    simp only [List.mem_cons, not_or] at h
    have := ih h.2
    simp only [List.cons_append]
    rw [List.takeWhile_cons_of_pos (by simpa using Ne.symm h.1), List.dropWhile_cons_of_pos (by simpa using Ne.symm h.1)]
    exact ⟨by rw [this.1], this.2⟩

/-- **C53** for positionals: Zsh reads of the spec the number of the positional, or `*` if it is
repeatable, its description, and its action; for `_normal` the spec has two colons, so that Zsh
completes the rest of the line as a command line of its own. -/
theorem C53_positional_partial (number : Nat) (repeatable : Bool) (description action t : Str)
    (hd : description ≠ [] ∧ BackslashPaired description)
    (ha : noBackslash .word action = true ∧ Posix.words action = some [t] ∧
      (∀ c, action.head? = some c → Posix.blank c = false) ∧ BackslashPaired t) :
    ∃ text w, makePositionalSpec number repeatable description action = .ok text ∧ Posix.words text = some [w] ∧
      readNormal w = some { number := if repeatable then none else some (natStr number),
                            double := decide (action = S "_normal"), message := description, action := t } := by
  obtain ⟨a1, a2, a3, a4⟩ := ha
  -- the number
  have hnum : ∀ r : Str, Posix.words ((if repeatable then S "'*'" else natStr number) ++ r) =
      Posix.read .word (if repeatable then ['*'] else natStr number) r := by
    intro r
    cases repeatable with
    | true => simp [Posix.words, S, Posix.read, Posix.blank]
    | false =>
      simp only [Bool.false_eq_true, if_false]
      exact read_gap_safe _ _ (fun c hc => (plain_char (Or.inl (by
        simp [Char.isAlphanum, natStr_isDigit hc]))).1) (natStr_ne_nil number)
  have hnormal : ∀ (double : Bool) (r : Str), readArguments (':' :: r) = some (double, some (description, t)) →
      readNormal ((if repeatable then ['*'] else natStr number) ++ ':' :: r) = some
        { number := if repeatable then none else some (natStr number), double := double, message := description, action := t } := by
    intro double r hr
    unfold readNormal
    cases repeatable with
    | true =>
      have := takeWhile_number ['*'] r (by decide)
      simp only [if_true]
      rw [this.1, this.2]
      simp [hr]
    | false =>
      have := takeWhile_number (natStr number) r (fun hm => absurd (natStr_isDigit hm) (by decide))
      simp only [Bool.false_eq_true, if_false]
      rw [this.1, this.2]
      have hne : natStr number ≠ ['*'] := by
        intro he
        have : '*' ∈ natStr number := by rw [he]; simp
        exact absurd (natStr_isDigit this) (by decide)
      rw [if_pos (Or.inr ⟨natStr_ne_nil number, fun c hc => natStr_isDigit hc⟩)]
      rw [hr, if_neg hne]
  have hcolon : ∀ (acc r : Str), Posix.read .word acc (':' :: r) = Posix.read .word (acc ++ [':']) r :=
    fun acc r => read_word_safe [':'] r acc (by decide)
  unfold makePositionalSpec
  by_cases hact : action = S "_normal"
  · simp only [if_pos hact]
    refine ⟨_, (if repeatable then ['*'] else natStr number) ++ ':' :: (':' :: (escapeColon description ++ ':' :: action)),
      rfl, ?_, ?_⟩
    · simp only [List.append_assoc]
      rw [hnum]
      simp only [List.cons_append, List.nil_append]
      rw [hcolon, hcolon, read_quote_word, hcolon, hact]
      have := read_word_safe (S "_normal") [] ((if repeatable = true then ['*'] else natStr number) ++ [':'] ++ [':'] ++ escapeColon description ++ [':']) (by decide)
      rw [List.append_nil] at this
      rw [this]
      simp [Posix.read]
    · have ht : t = S "_normal" := by
        rw [hact] at a2
        have h0 : Posix.words (S "_normal") = some [S "_normal"] := by decide
        rw [h0] at a2
        simpa using a2.symm
      have := readArgument_escaped hd.2 a4
      rw [hnormal true]
      · simp [hact]
      · rw [readArguments, hact]
        have e : escapeColon t = S "_normal" := by rw [ht]; decide
        rw [e] at this
        rw [this]; rfl
  · simp only [if_neg hact]
    obtain ⟨act, e, hr⟩ := action_word a1 a3 a2
    rw [e]
    refine ⟨_, (if repeatable then ['*'] else natStr number) ++ ':' :: (escapeColon description ++ ':' :: escapeColon t),
      rfl, ?_, ?_⟩
    · simp only [List.append_assoc]
      rw [hnum]
      simp only [List.cons_append, List.nil_append]
      rw [hcolon, read_quote_word, hcolon, hr]
      simp
    · rw [hnormal false]
      · simp [hact]
      · exact readArguments_escaped hd.1 hd.2 a4

/-- Positionals that meet the conditions. -/
theorem C53_positional_example :
    makePositionalSpec 2 false (S "in: file") (S "_files") = .ok (S "2:'in\\: file':_files") ∧
    makePositionalSpec 3 true (S "command") (S "_normal") = .ok (S "'*'::command:_normal") ∧
    BackslashPaired (S "in: file") ∧ Posix.words (S "_files") = some [S "_files"] := by
  refine ⟨rfl, rfl, ?_, by decide⟩
  simp [BackslashPaired, S]

end CC
