import Verif.Lemmas.HelpParser

/-! C54: what the help parser does with any text, and C62: what it does with a
text in the usual layout. -/

namespace CC
open HelpText

/-! ### Reading one option -/

theorem parseOptionDelimiter_cases (s : Str) :
    (parseOptionDelimiter s = .error .crash ∧ Blanks s) ∨
    (parseOptionDelimiter s = .ok none) ∨
    (∃ b d r, parseOptionDelimiter s = .ok (some r) ∧ Blanks b ∧ (d = ',' ∨ d = '|') ∧
      s = b ++ d :: r) := by
  unfold parseOptionDelimiter
  split
  · rename_i h
    left
    refine ⟨rfl, ?_⟩
    have := eatSpace_append s
    rw [h, List.append_nil] at this
    rw [← this]; exact eatSpace_blanks s
  · rename_i c cs h
    right
    by_cases hc : isDelimChar c = true
    · right
      refine ⟨_, c, cs, by simp [hc], eatSpace_blanks s, (isDelimChar_iff c).1 hc, ?_⟩
      rw [← h, eatSpace_append]
    · left; simp [hc]

/-- Reading what follows an option word either gives the option with the text it
is written in, or crashes because nothing but blanks is left. -/
theorem metavarAfter_cases {b opt : Str} (hb : Blanks b) (ho : OptionWord opt) (s : Str) :
    (metavarAfter opt s = .error .crash ∧ Blanks s) ∨
    (∃ o t r, metavarAfter opt s = .ok (o, r) ∧ WrittenOption false o t ∧ b ++ opt ++ s = t ++ r) := by
  have alone : ∃ o t r, (Except.ok (⟨opt, none, false⟩, s) : Except Err (HelpOption × Str)) = .ok (o, r) ∧
      WrittenOption false o t ∧ b ++ opt ++ s = t ++ r :=
    ⟨_, _, _, rfl, WrittenOption.alone hb ho, rfl⟩
  unfold metavarAfter
  split
  · rename_i h
    right
    have h1 := parseMetavar_append s
    have h2 := parseMetavar_metavar s
    have h3 : ∃ m, (parseMetavar s).1 = '[' :: '=' :: m := by
      match s, h with
      | [], h => simp at h
      | [c], h => simp at h
      | c :: d :: r, h =>
        simp only [List.take_succ_cons, List.take_zero, List.cons.injEq] at h
        obtain ⟨rfl, rfl, -⟩ := h
        have e1 : isSpTab '[' = false := by decide
        have e2 : isDelimChar '[' = false := by decide
        have e3 : closingOf '[' = some ']' := by decide
        have e4 : ¬ ('=' = ']') := by decide
        simp [parseMetavar, metavarGo, e1, e2, e3, e4]
    obtain ⟨m, hm⟩ := h3
    refine ⟨_, b ++ opt ++ '[' :: '=' :: m, _, by rw [hm], ?_, ?_⟩
    · rw [hm] at h2
      exact WrittenOption.optional hb ho h2
    · rw [List.append_assoc _ _ (parseMetavar s).2, ← hm, h1]
  split
  · rename_i h
    right
    cases s with
    | nil => simp at h
    | cons c cs =>
      simp only [List.head?_cons, Option.some.injEq] at h
      subst h
      refine ⟨_, _, _, rfl, WrittenOption.equals hb ho (parseMetavar_metavar cs), ?_⟩
      simp [parseMetavar_append cs]
  split
  · right; exact alone
  rcases parseOptionDelimiter_cases s with ⟨h, hs⟩ | h | ⟨_, d, r, h, _, _, _⟩
  · left; rw [h]; exact ⟨rfl, hs⟩
  · right
    rw [h]
    dsimp only
    split
    · rename_i hsp
      cases s with
      | nil => simp at hsp
      | cons c cs =>
        simp only [List.head?_cons, Option.map_some, Option.some.injEq, isSpTab_iff] at hsp
        refine ⟨_, _, _, rfl, WrittenOption.space hb ho hsp (parseMetavar_metavar cs), ?_⟩
        simp [parseMetavar_append cs]
    · exact alone
  · right; rw [h]; exact alone

theorem parseOptionWithMetavar_cases (s : Str) :
    (parseOptionWithMetavar s = .error .crash ∧ ∃ t o r, WrittenOption false o t ∧ Blanks r ∧ s = t ++ r) ∨
    (parseOptionWithMetavar s = .ok none) ∨
    (∃ o t r, parseOptionWithMetavar s = .ok (some (o, r)) ∧ WrittenOption false o t ∧ s = t ++ r) := by
  unfold parseOptionWithMetavar
  split
  · right; left; rfl
  · rename_i opt s' h
    obtain ⟨b, hb, ho, rfl⟩ := parseOptionString_some h
    rcases metavarAfter_cases hb ho s' with ⟨h1, h2⟩ | ⟨o, t, r, h1, h2, h3⟩
    · left
      rw [h1]
      exact ⟨rfl, _, _, _, WrittenOption.alone hb ho, h2, rfl⟩
    · right; right
      rw [h1]
      exact ⟨o, t, r, rfl, h2, h3⟩

theorem written_option_nonempty {closed : Bool} {o : HelpOption} {t : Str}
    (h : WrittenOption closed o t) : 1 ≤ t.length := by
  have : ∀ w, OptionWord w → 1 ≤ w.length := by
    intro w hw
    have := hw.hyphen
    cases w with
    | nil => simp at this
    | cons => simp
  cases h with
  | alone _ ho => have := this _ ho; simp only [List.length_append]; omega
  | equals _ ho => have := this _ ho; simp only [List.length_append]; omega
  | optional _ ho => have := this _ ho; simp only [List.length_append]; omega
  | space _ ho => have := this _ ho; simp only [List.length_append]; omega

/-- The text ends with an option, its metavar and blanks. -/
def EndsWithOption (s : Str) : Prop :=
  ∃ p t o b, WrittenOption false o t ∧ Blanks b ∧ s = p ++ t ++ b

theorem EndsWithOption.prepend {s : Str} (p : Str) (h : EndsWithOption s) :
    EndsWithOption (p ++ s) := by
  obtain ⟨q, t, o, b, h1, h2, rfl⟩ := h
  exact ⟨p ++ q, t, o, b, h1, h2, by simp⟩

/-! ### Reading the options of an entry -/

theorem helpOptionsGo_cases (n : Nat) (s : Str) (hn : s.length < n) :
    (helpOptionsGo n s = .error .crash ∧ EndsWithOption s) ∨
    (helpOptionsGo n s = .ok ([], s)) ∨
    (∃ os t r, helpOptionsGo n s = .ok (os, r) ∧ WrittenOptions os t ∧ s = t ++ r) := by
  induction n generalizing s with
  | zero => omega
  | succ n ih =>
    simp only [helpOptionsGo]
    split
    · right; left; simp_all
    rcases parseOptionWithMetavar_cases s with ⟨h, t, o, r, hw, hr, hs⟩ | h | ⟨o, t, r, h, hw, rfl⟩
    · left
      rw [h]
      exact ⟨rfl, [], t, o, r, hw, hr, by simp [hs]⟩
    · right; left
      rw [h]
    · rw [h]
      dsimp only
      rcases parseOptionDelimiter_cases r with ⟨h1, h2⟩ | h1 | ⟨b, d, r', h1, hb, hd, rfl⟩
      · left; rw [h1]; exact ⟨rfl, [], t, o, r, hw, h2, by simp⟩
      · right; right; rw [h1]; exact ⟨_, t, r, rfl, WrittenOptions.last hw, rfl⟩
      · rw [h1]
        dsimp only
        have hl := written_option_nonempty hw
        rcases ih r' (by simp at hn; omega) with ⟨h2, h3⟩ | h2 | ⟨os, u, r'', h2, h3, rfl⟩
        · left
          rw [h2]
          have := h3.prepend (t ++ (b ++ [d]))
          exact ⟨rfl, by simpa using this⟩
        · right; right
          rw [h2]
          exact ⟨_, t ++ b ++ [d], r', rfl, WrittenOptions.dangling hw hb hd, by simp⟩
        · right; right
          rw [h2]
          exact ⟨_, t ++ b ++ d :: u, r'', rfl, WrittenOptions.cons hw hb hd h3, by simp⟩

theorem written_options_nonempty {os : List HelpOption} {t : Str} (h : WrittenOptions os t) :
    os ≠ [] ∧ 1 ≤ t.length := by
  cases h with
  | last h => exact ⟨by simp, written_option_nonempty h⟩
  | dangling h => exact ⟨by simp, by have := written_option_nonempty h; simp; omega⟩
  | cons h => exact ⟨by simp, by have := written_option_nonempty h; simp; omega⟩

/-! ### Reading the description -/

theorem parseTrailing_some {s l r : Str} (h : parseTrailing s = some (l, r)) :
    ∃ b, Blanks b ∧ Line l ∧ s = b ++ l ++ r := by
  unfold parseTrailing at h
  split at h
  · simp at h
  split at h
  · dsimp only at h
    split at h
    · simp at h
    · rename_i c _ _ _
      simp only [Option.some.injEq] at h
      generalize hs : (c :: _ : Str) = s at *
      have h1 := eatLine_append (eatSpace s).2
      rw [h] at h1
      refine ⟨(eatSpace s).1, eatSpace_blanks s, ?_, ?_⟩
      · have := eatLine_line (eatSpace s).2
        rw [h] at this; exact this
      · rw [List.append_assoc, h1, eatSpace_append]
  · simp at h

theorem trailingGo_written (n : Nat) (s : Str) :
    ∃ t, WrittenDescription (trailingGo n s).1 t ∧ s = t ++ (trailingGo n s).2 := by
  have nothing : WrittenDescription [] [] := WrittenDescription.blanks (by simp [Blanks])
  induction n generalizing s with
  | zero => exact ⟨[], nothing, rfl⟩
  | succ n ih =>
    simp only [trailingGo]
    split
    · exact ⟨[], nothing, rfl⟩
    · rename_i line s' h
      obtain ⟨b, hb, hl, rfl⟩ := parseTrailing_some h
      split
      · rename_i he
        subst he
        exact ⟨b, WrittenDescription.blanks hb, by simp⟩
      · obtain ⟨t, h1, h2⟩ := ih s'
        refine ⟨b ++ line ++ t, WrittenDescription.line hb hl h1, ?_⟩
        dsimp only
        conv => lhs; rw [h2]
        simp

theorem parseDescription_written (s : Str) :
    ∃ t, WrittenDescription (parseDescription s).1 t ∧ s = t ++ (parseDescription s).2 := by
  unfold parseDescription
  dsimp only
  obtain ⟨t, h1, h2⟩ := trailingGo_written ((eatLine (eatSpace s).2).2.length + 1)
    (eatLine (eatSpace s).2).2
  refine ⟨(eatSpace s).1 ++ (eatLine (eatSpace s).2).1 ++ t,
    WrittenDescription.line (eatSpace_blanks s) (eatLine_line _) h1, ?_⟩
  rw [List.append_assoc, ← h2, List.append_assoc, eatLine_append, eatSpace_append]

theorem withDescription_written {os : List HelpOption} {t : Str} (h : WrittenOptions os t) (s : Str) :
    ∃ u, WrittenItem (withDescription os s).1 u ∧ t ++ s = u ++ (withDescription os s).2 ∧
      1 ≤ u.length := by
  have hl := (written_options_nonempty h).2
  unfold withDescription
  split
  · obtain ⟨u, h1, h2⟩ := parseDescription_written s
    refine ⟨t ++ u, WrittenItem.described h h1, ?_, by simp; omega⟩
    dsimp only
    conv => lhs; rw [h2]
    simp
  · exact ⟨t, WrittenItem.bare h, rfl, hl⟩

theorem parseOptionsWithDescription_cases (s : Str) :
    (parseOptionsWithDescription s = .error .crash ∧ EndsWithOption s) ∨
    (parseOptionsWithDescription s = .ok none) ∨
    (∃ i t r, parseOptionsWithDescription s = .ok (some (i, r)) ∧ WrittenItem i t ∧ s = t ++ r ∧
      1 ≤ t.length) := by
  unfold parseOptionsWithDescription
  rcases helpOptionsGo_cases (s.length + 1) s (by omega) with ⟨h1, h2⟩ | h1 | ⟨os, t, r, h1, h2, hs⟩
  · left; rw [h1]; exact ⟨rfl, h2⟩
  · right; left; rw [h1]; rfl
  · right; right
    rw [h1]
    dsimp only
    rw [if_neg (written_options_nonempty h2).1]
    obtain ⟨u, h3, h4, h5⟩ := withDescription_written h2 r
    exact ⟨_, u, _, rfl, h3, hs.trans h4, h5⟩

theorem parseHelpGo_cases (n : Nat) (s : Str) (hn : s.length < n) :
    (parseHelpGo n s = .error .crash ∧ EndsWithOption s) ∨
    (∃ items, parseHelpGo n s = .ok items ∧ Covers items s) := by
  induction n generalizing s with
  | zero => omega
  | succ n ih =>
    simp only [parseHelpGo]
    split
    · rename_i hs
      right; subst hs; exact ⟨[], rfl, Covers.nil⟩
    rename_i hs
    rcases parseOptionsWithDescription_cases s with ⟨h1, h2⟩ | h1 | ⟨i, t, r, h1, h2, rfl, h3⟩
    · left; rw [h1]; exact ⟨rfl, h2⟩
    · rw [h1]
      dsimp only
      have e := eatLine_append s
      have hne := eatLine_nonempty hs
      have hlen : (eatLine s).2.length < n := by
        have : ((eatLine s).1 ++ (eatLine s).2).length = s.length := by rw [e]
        have h0 : 1 ≤ (eatLine s).1.length := by
          cases h : (eatLine s).1 with
          | nil => exact absurd h hne
          | cons => simp
        simp only [List.length_append] at this
        omega
      rcases ih _ hlen with ⟨h2, h3⟩ | ⟨items, h2, h3⟩
      · left; rw [h2]
        have := h3.prepend (eatLine s).1
        rw [e] at this
        exact ⟨rfl, this⟩
      · right; rw [h2]
        refine ⟨_, rfl, ?_⟩
        have := Covers.cons (WrittenItem.unparsed (eatLine_line s) hne) h3
        rw [e] at this
        exact this
    · rw [h1]
      dsimp only
      rcases ih r (by simp at hn; omega) with ⟨h4, h5⟩ | ⟨items, h4, h5⟩
      · left; rw [h4]; exact ⟨rfl, h5.prepend t⟩
      · right; rw [h4]; exact ⟨_, rfl, Covers.cons h2 h5⟩

/-- **C54**, coverage: whenever the parser returns a result, its items cover the
text completely and in order. -/
theorem C54_covers (s : Str) (items : List HelpItem) (h : parseHelp s = .ok items) :
    Covers items s := by
  rcases parseHelpGo_cases (s.length + 1) s (by omega) with ⟨h1, _⟩ | ⟨is, h1, h2⟩
  · unfold parseHelp at h; rw [h1] at h; cases h
  · unfold parseHelp at h; rw [h1] at h; cases h; exact h2

/-- **C54**, when it crashes: parsing ends for every text, and it ends with a
result unless the text ends with an option, its metavar and blanks. -/
theorem C54_crash_only (s : Str) (e : Err) (h : parseHelp s = .error e) :
    e = .crash ∧ EndsWithOption s := by
  rcases parseHelpGo_cases (s.length + 1) s (by omega) with ⟨h1, h2⟩ | ⟨is, h1, h2⟩
  · unfold parseHelp at h; rw [h1] at h; cases h; exact ⟨rfl, h2⟩
  · unfold parseHelp at h; rw [h1] at h; cases h

theorem snoc_last {a b : Str} {x y : Char} (h : a ++ [x] = b ++ [y]) : x = y := by
  have := congrArg List.getLast? h
  simpa using this

theorem snoc_cases (s : Str) : s = [] ∨ ∃ a x, s = a ++ [x] := by
  rcases List.eq_nil_or_concat s with h | ⟨a, x, h⟩
  · exact Or.inl h
  · exact Or.inr ⟨a, x, by simpa using h⟩

theorem metavar_last_newline {m : Str} (h : Metavar false m) :
    ∀ p, m = p ++ ['\n'] → ∃ l o q body, Pair o q ∧ q ∉ body ∧ m = l ++ o :: body := by
  induction h with
  | nil => intro p hp; simp at hp
  | @char c m hc _ ih =>
    intro p hp
    cases p with
    | nil =>
      simp only [List.nil_append, List.cons.injEq] at hp
      exact absurd hp.1 hc.2.2.1
    | cons x xs =>
      simp only [List.cons_append, List.cons.injEq] at hp
      obtain ⟨l, o, q, body, h1, h2, h3⟩ := ih xs hp.2
      exact ⟨c :: l, o, q, body, h1, h2, by simp [h3]⟩
  | @group o q body m hp hq _ ih =>
    intro p e
    rcases snoc_cases m with rfl | ⟨m', x, rfl⟩
    · exfalso
      have : q = '\n' := snoc_last (a := o :: body) e
      subst this
      cases hp
    · have : x = '\n' := snoc_last (a := o :: body ++ q :: m') (by simpa using e)
      subst this
      obtain ⟨l, o', q', body', h1, h2, h3⟩ := ih m' rfl
      exact ⟨o :: body ++ q :: l, o', q', body', h1, h2, by simp [h3]⟩
  | @unclosed o q body _ hp hq => intro p _; exact ⟨[], o, q, body, hp, hq, rfl⟩

/-- **C54**, no crash: a text that ends in a newline and in which every opening
bracket or quote is followed by its closing one is parsed without a crash, and
the items cover it. -/
theorem C54_total_partial (s : Str) (hn : ∃ p, s = p ++ ['\n'])
    (hc : ∀ l o q r, Pair o q → s = l ++ o :: r → q ∈ r) :
    ∃ items, parseHelp s = .ok items ∧ Covers items s := by
  rcases parseHelpGo_cases (s.length + 1) s (by omega) with ⟨h1, h2⟩ | h
  · exfalso
    obtain ⟨p, t, o, b, hw, hb, hs⟩ := h2
    obtain ⟨p', hp'⟩ := hn
    have hb0 : b = [] := by
      rcases snoc_cases b with rfl | ⟨b', x, rfl⟩
      · rfl
      · exfalso
        have hx := hb x (by simp)
        have : x = '\n' := snoc_last (a := p ++ t ++ b') (b := p') (by
          rw [← hp', hs]; simp)
        subst this
        simp at hx
    subst hb0
    simp only [List.append_nil] at hs
    have last : ∀ (pre m : Str) , s = pre ++ m → m ≠ [] → Metavar false m → False := by
      intro pre m hs hne hm
      rcases snoc_cases m with rfl | ⟨m', x, rfl⟩
      · exact hne rfl
      · have hx : x = '\n' := snoc_last (a := pre ++ m') (b := p') (by rw [← hp', hs]; simp)
        subst hx
        obtain ⟨l, o', q, body, h1, h2, h3⟩ := metavar_last_newline hm m' rfl
        exact h2 (hc (pre ++ l) o' q body h1 (by rw [hs, h3]; simp))
    have after : ∀ (pre : Str) (c : Char) (m : Str), s = pre ++ c :: m → c ≠ '\n' →
        Metavar false m → False := by
      intro pre c m hs hcn hm
      by_cases hm0 : m = []
      · subst hm0
        exact hcn (snoc_last (a := pre) (b := p') (by rw [← hp', hs]))
      · exact last (pre ++ [c]) m (by rw [hs]; simp) hm0 hm
    cases hw with
    | @alone b0 w _ hw' =>
      rcases snoc_cases w with rfl | ⟨w', x, rfl⟩
      · have := hw'.hyphen; simp at this
      · have hx : x = '\n' := snoc_last (a := p ++ (b0 ++ w')) (b := p') (by
          rw [← hp', hs]; simp)
        subst hx
        exact hw'.chars '\n' (by simp) (by simp)
    | @equals b0 w m _ _ hm => exact after (p ++ (b0 ++ w)) '=' m (by rw [hs]; simp) (by decide) hm
    | @space b0 w c m _ _ hcc hm =>
      exact after (p ++ (b0 ++ w)) c m (by rw [hs]; simp) (by rintro rfl; simp at hcc) hm
    | @optional b0 w m _ _ hm =>
      exact last (p ++ (b0 ++ w)) _ (by rw [hs]; simp) (by simp) hm
  · exact h

end CC
