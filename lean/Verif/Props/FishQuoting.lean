import Verif.Lemmas.Quoting
import Verif.Model.FishConditions
import Verif.Spec.Fish
/-!
# C03, C05: quoting as read by Fish
-/

namespace CC

/-- Every backslash is followed by a character that is neither a backslash nor a single quote. -/
def backslashHarmless : Str → Bool
  | [] => true
  | ['\\'] => false
  | '\\' :: c :: cs => c != '\\' && c != '\'' && backslashHarmless (c :: cs)
  | _ :: cs => backslashHarmless cs

/-- The strings on which Fish and POSIX agree about the quoted form: quoted with double
quotes (there is a single quote but no double quote) and no backquote; or else no backslash
in front of a backslash, of a single quote, or at the end. -/
def fishReadable (s : Str) : Bool :=
  if s.contains '\'' && !s.contains '"' then !s.contains '`'
  else backslashHarmless s

theorem bh_cons {c : Char} {cs : Str} (h : backslashHarmless (c :: cs) = true) :
    backslashHarmless cs = true ∧ (c = '\\' → ∃ d ds, cs = d :: ds ∧ d ≠ '\\' ∧ d ≠ '\'') := by
  unfold backslashHarmless at h
  split at h
  · rename_i heq; cases heq
  · cases h
  · rename_i heq
    simp only [List.cons.injEq] at heq
    obtain ⟨rfl, rfl⟩ := heq
    simp at h
    exact ⟨h.2, fun _ => ⟨_, _, rfl, h.1.1, h.1.2⟩⟩
  · rename_i h1 h2 heq
    simp only [List.cons.injEq] at heq
    obtain ⟨rfl, rfl⟩ := heq
    refine ⟨h, ?_⟩
    rintro rfl
    cases cs with
    | nil => exact absurd rfl (h1 rfl)
    | cons d ds => exact absurd rfl (h2 _ _ rfl)

theorem fish_safe {c : Char} (h : isSafeChar c = true) :
    Fish.blank c = false ∧ c ≠ '\'' ∧ c ≠ '"' ∧ c ≠ '\\' ∧ Fish.special.contains c = false := by
  refine ⟨?_, ?_, ?_, ?_, ?_⟩
  · simp only [Fish.blank, Bool.or_eq_false_iff, beq_eq_false_iff_ne]
    refine ⟨⟨?_, ?_⟩, ?_⟩ <;> rintro rfl <;> revert h <;> decide
  · rintro rfl; revert h; decide
  · rintro rfl; revert h; decide
  · rintro rfl; revert h; decide
  · rw [Bool.eq_false_iff]; intro hc
    simp only [Fish.special, List.contains_iff_mem, List.mem_cons, List.not_mem_nil, or_false] at hc
    rcases hc with h1 | h1 | h1 | h1 | h1 | h1 | h1 | h1 | h1 | h1 | h1 | h1 | h1 | h1 | h1 | h1 |
      h1 | h1 <;> subst h1 <;> revert h <;> decide

theorem fish_word_safe (s t acc : Str) (h : ∀ c ∈ s, isSafeChar c = true) :
    Fish.read .word acc (s ++ t) = Fish.read .word (acc ++ s) t := by
  induction s generalizing acc with
  | nil => simp
  | cons c cs ih =>
    have hc := fish_safe (h c (by simp))
    simp only [List.cons_append, Fish.read, hc, Bool.false_eq_true, if_false]
    rw [ih _ (fun x hx => h x (by simp [hx]))]
    simp

theorem fish_gap_safe (s t : Str) (h : ∀ c ∈ s, isSafeChar c = true) (hne : s ≠ []) :
    Fish.read .gap [] (s ++ t) = Fish.read .word s t := by
  cases s with
  | nil => exact absurd rfl hne
  | cons c cs =>
    have hc := fish_safe (h c (by simp))
    simp only [List.cons_append, Fish.read, hc, Bool.false_eq_true, if_false]
    rw [fish_word_safe _ _ _ (fun x hx => h x (by simp [hx]))]
    simp

theorem fish_sq (s t acc : Str) (hb : backslashHarmless s = true) :
    Fish.read .sq acc (replaceChar '\'' ['\'', '"', '\'', '"', '\''] s ++ '\'' :: t)
      = Fish.read .word (acc ++ s) t := by
  match s with
  | [] => simp [Fish.read, replaceChar]
  | c :: cs =>
    have hc := bh_cons hb
    have ih1 := fun acc => fish_sq cs t acc hc.1
    by_cases h1 : c = '\''
    · subst h1
      simp only [replaceChar, if_true, List.cons_append, List.nil_append]
      simp [Fish.read, Fish.blank, ih1]
    · by_cases h2 : c = '\\'
      · subst h2
        obtain ⟨d, ds, rfl, hd1, hd2⟩ := hc.2 rfl
        have hds := bh_cons hc.1
        have ih2 := fun acc => fish_sq ds t acc hds.1
        simp [replaceChar, hd2, Fish.read, hd1, ih2]
      · simp only [replaceChar, h1, if_false, List.cons_append, Fish.read, h2]
        rw [ih1]; simp

theorem replaceChar_not_mem (c : Char) (r s : Str) (h : c ∉ s) : replaceChar c r s = s := by
  induction s with
  | nil => rfl
  | cons x xs ih =>
    simp only [List.mem_cons, not_or] at h
    simp [replaceChar, Ne.symm h.1, ih h.2]

theorem fish_dq (s t acc : Str) (h : '"' ∉ s) (hb : '`' ∉ s) :
    Fish.read .dq acc (escapeDouble s ++ '"' :: t) = Fish.read .word (acc ++ s) t := by
  induction s generalizing acc with
  | nil => simp [Fish.read, escapeDouble, replaceChar]
  | cons c cs ih =>
    simp only [List.mem_cons, not_or] at h hb
    have ih' := fun acc => ih acc h.2 hb.2
    rw [escapeDouble_cons]
    split
    · rename_i h1
      simp only [List.cons_append, List.nil_append, Fish.read]
      rcases h1 with rfl | rfl | rfl
      · simp [ih']
      · simp [ih']
      · exact absurd rfl hb.1
    · rename_i h1
      simp only [not_or] at h1
      simp only [List.cons_append, List.nil_append, Fish.read, Ne.symm h.1, h1.1, h1.2.1, if_false]
      rw [ih']; simp

/-- **C03**, partial: on every `fishReadable` string Fish reads the quoted text back exactly,
whatever follows. Missing: the strings that are not `fishReadable`; for them the claim is false
in general, see `C03_backslash_false`, `C03_trailing_backslash_false` and `C03_backquote_false`. -/
theorem C03_fish_quote_in_context_partial (s t : Str) (h : fishReadable s = true) :
    Fish.read .gap [] (quote s ++ t) = Fish.read .word s t := by
  unfold quote
  simp only [Bool.not_true, Bool.and_false, Bool.false_eq_true, if_false]
  split
  · rename_i h1
    have := needsQuote_false (by simpa using h1)
    exact fish_gap_safe s t this.2 this.1
  · split
    · rename_i h1
      have h' : '\'' ∉ s := by simpa using h1
      have hb : backslashHarmless s = true := by simpa [fishReadable, h'] using h
      have := fish_sq s t [] hb
      rw [replaceChar_not_mem _ _ _ h'] at this
      simp only [List.append_assoc, List.cons_append, List.nil_append, Fish.read]
      simp [this, Fish.blank]
    · rename_i h1
      split
      · rename_i h2
        have h1' : '\'' ∈ s := by simpa using h1
        have h2' : '"' ∉ s := by simpa using h2
        have hb : '`' ∉ s := by simpa [fishReadable, h1', h2'] using h
        simp only [List.append_assoc, List.cons_append, List.nil_append, Fish.read]
        rw [fish_dq _ _ _ h2' hb]; simp [Fish.blank]
      · rename_i h2
        have h2' : '"' ∈ s := by simpa using h2
        have hb : backslashHarmless s = true := by simpa [fishReadable, h2'] using h
        simp only [List.append_assoc, List.cons_append, List.nil_append, Fish.read]
        rw [fish_sq s t [] hb]; simp [Fish.blank]

/-- **C03**, partial, for lists of arguments. -/
theorem C03_fish_join_quoted_partial (args : List Str) (h : ∀ a ∈ args, fishReadable a = true) :
    Fish.words (joinQuoted args) = some args := by
  unfold Fish.words joinQuoted
  induction args with
  | nil => simp [joinWith, Fish.read]
  | cons x xs ih =>
    have hx := h x (by simp)
    have ih' := ih (fun a ha => h a (by simp [ha]))
    cases xs with
    | nil =>
      have := C03_fish_quote_in_context_partial x [] hx
      simp only [List.append_nil] at this
      simp [joinWith, this, Fish.read]
    | cons y ys =>
      simp only [List.map_cons, joinWith, List.append_assoc, List.cons_append, List.nil_append] at ih' ⊢
      rw [C03_fish_quote_in_context_partial _ _ hx]
      simp only [Fish.read, Fish.blank]
      simp [ih']

example : fishReadable (S "C:\\dir it's") = true := by decide
example : Fish.words (quote (S "C:\\dir $x \"q\" it's")) = some [S "C:\\dir $x \"q\" it's"] := by decide

/-- **C03** is false: a double backslash is read by Fish as one. -/
theorem C03_backslash_false : Fish.words (quote (S "a\\\\b")) = some [S "a\\b"] := by decide

/-- **C03** is false: after a trailing backslash the closing quote is taken literally. -/
theorem C03_trailing_backslash_false : Fish.words (quote (S "a b\\")) = none := by decide

/-- **C03** is false: in double quotes Fish keeps the backslash before a backquote. -/
theorem C03_backquote_false : Fish.words (quote (S "it's `")) = some [S "it's \\`"] := by decide

/-! ### C05 -/

theorem dq_escape (env : Str → Str) (s t : Str) (h : '`' ∉ s) :
    Fish.dqExpand env .normal (escapeInDouble s ++ t) =
      (Fish.dqExpand env .normal t).map (s ++ ·) := by
  induction s with
  | nil => simp [escapeInDouble]
  | cons c cs ih =>
    simp only [List.mem_cons, not_or] at h
    have ih' := ih h.2
    simp only [escapeInDouble]
    split
    · rename_i h1
      simp only [List.cons_append, Fish.dqExpand]
      rcases h1 with rfl | rfl | rfl | rfl
      · simp [ih', Option.map_map, Function.comp_def]
      · simp [ih', Option.map_map, Function.comp_def]
      · exact absurd rfl h.1
      · simp [ih', Option.map_map, Function.comp_def]
    · rename_i h1
      simp only [not_or] at h1
      simp only [List.cons_append, Fish.dqExpand, h1, if_false]
      simp [ih', Option.map_map, Function.comp_def]

theorem mem_replaceChar {x c : Char} {r s : Str} (h : x ∈ replaceChar c r s) : x ∈ s ∨ x ∈ r := by
  induction s with
  | nil => simp [replaceChar] at h
  | cons a as ih =>
    simp only [replaceChar] at h
    split at h
    · simp only [List.mem_append] at h
      rcases h with h | h
      · exact Or.inr h
      · rcases ih h with h | h
        · left; simp [h]
        · exact Or.inr h
    · simp only [List.mem_cons] at h ⊢
      rcases h with h | h
      · exact Or.inl (Or.inl h)
      · rcases ih h with h | h
        · exact Or.inl (Or.inr h)
        · exact Or.inr h

theorem quote_no_backquote {s : Str} (h : '`' ∉ s) : '`' ∉ quote s := by
  unfold quote
  simp only [Bool.not_true, Bool.and_false, Bool.false_eq_true, if_false]
  split
  · exact h
  · split
    · simp [h]
    · split
      · intro hm
        simp only [List.mem_append, List.mem_singleton] at hm
        rcases hm with (hm | hm) | hm
        · exact absurd hm (by decide)
        · unfold escapeDouble at hm
          have e1 : '`' ∉ replaceChar '\\' ['\\', '\\'] s := fun hh =>
            (mem_replaceChar hh).elim h (by decide)
          have e2 : '`' ∉ replaceChar '$' ['\\', '$'] (replaceChar '\\' ['\\', '\\'] s) := fun hh =>
            (mem_replaceChar hh).elim e1 (by decide)
          rw [replaceChar_not_mem _ _ _ e2] at hm
          exact e2 hm
        · exact absurd hm (by decide)
      · intro hm
        simp only [List.mem_append, List.mem_singleton] at hm
        rcases hm with (hm | hm) | hm
        · exact absurd hm (by decide)
        · exact (mem_replaceChar hm).elim h (by decide)
        · exact absurd hm (by decide)

theorem dq_join (env : Str → Str) (args : List Str) (h : ∀ a ∈ args, '`' ∉ a) :
    Fish.dqExpand env .normal (joinWith [' '] (args.map (fun a => escapeInDouble (quote a))))
      = some (joinQuoted args) := by
  induction args with
  | nil => simp [joinWith, joinQuoted, Fish.dqExpand]
  | cons x xs ih =>
    have hx := quote_no_backquote (h x (by simp))
    have ih' := ih (fun a ha => h a (by simp [ha]))
    cases xs with
    | nil =>
      have := dq_escape env (quote x) [] hx
      simp only [List.append_nil] at this
      simp [joinWith, this, joinQuoted, Fish.dqExpand]
    | cons y ys =>
      simp only [List.map_cons, joinWith, List.append_assoc, List.cons_append, List.nil_append,
        joinQuoted] at ih' ⊢
      rw [dq_escape _ _ _ hx]
      simp [Fish.dqExpand, ih']

theorem dq_var (env : Str → Str) (name t acc : Str) (hn : ∀ c ∈ name, Fish.varChar c = true)
    (hne : acc ++ name ≠ []) :
    Fish.dqExpand env (.var acc) (name ++ ' ' :: t) =
      (Fish.dqExpand env .normal t).map (fun r => env (acc ++ name) ++ ' ' :: r) := by
  induction name generalizing acc with
  | nil =>
    have : acc ≠ [] := by simpa using hne
    simp [Fish.dqExpand, Fish.varChar, this]
  | cons c cs ih =>
    have hc := hn c (by simp)
    simp only [List.cons_append, Fish.dqExpand, hc, if_true]
    rw [ih (acc ++ [c]) (fun x hx => hn x (by simp [hx])) (by simp)]
    simp

/-- **C05**, partial: Fish expands the double-quoted condition text to the value of the prefix
variable, a blank, and exactly the individually quoted arguments. Missing: arguments that contain
a backquote, for which the claim is false (`C05_backquote_false`). -/
theorem C05_condition_command_expand_partial (env : Str → Str) (name : Str) (args : List Str)
    (hn : ∀ c ∈ name, Fish.varChar c = true) (hne : name ≠ [])
    (h : ∀ a ∈ args, '`' ∉ a) :
    Fish.dqExpand env .normal (makeConditionCommand ('$' :: name) args)
      = some (env name ++ [' '] ++ joinQuoted args) := by
  unfold makeConditionCommand
  simp only [List.cons_append, List.append_assoc, Fish.dqExpand, List.nil_append]
  have := dq_var env name (joinWith [' '] (args.map (fun a => escapeInDouble (quote a)))) []
    hn (by simpa using hne)
  simp [this, dq_join env args h]

/-- **C05**, partial, both layers: after the expansion Fish reads the argument part as exactly the
argument list. -/
theorem C05_condition_command_args_partial (env : Str → Str) (name : Str) (args : List Str)
    (hn : ∀ c ∈ name, Fish.varChar c = true) (hne : name ≠ [])
    (h : ∀ a ∈ args, '`' ∉ a) (hf : ∀ a ∈ args, fishReadable a = true) :
    ∃ t, Fish.dqExpand env .normal (makeConditionCommand ('$' :: name) args)
      = some (env name ++ [' '] ++ t) ∧ Fish.words t = some args :=
  ⟨_, C05_condition_command_expand_partial env name args hn hne h,
    C03_fish_join_quoted_partial args hf⟩

example : makeConditionCommand (S "$has_option") [S "-f", S "a $b\"c"]
    = S "$has_option -f 'a \\$b\\\"c'" := by decide

/-- **C05** is false for a backquote: Fish keeps the backslash put before it, and the argument
read at completion time is a backslash and a backquote. -/
theorem C05_backquote_false (env : Str → Str) :
    Fish.dqExpand env .normal (makeConditionCommand (S "$x") [S "`"])
      = some (env (S "x") ++ S " '\\`'") ∧ Fish.words (S "'\\`'") = some [S "\\`"] := by
  refine ⟨?_, by decide⟩
  have h : makeConditionCommand (S "$x") [S "`"] = ['$', 'x', ' ', '\'', '\\', '`', '\''] := by decide
  rw [h]
  simp [S, Fish.dqExpand, Fish.varChar]

end CC
