import Verif.Props.HelpParser

/-! C62: a help text in the usual layout is read as what it says. -/

namespace CC
open HelpText

/-- What may follow an option for it to be read in full. -/
structure AfterOption (r : Str) : Prop where
  stop : MetavarEnd r
  found : twoSpaces r = true ∨ (∃ x, parseOptionDelimiter r = .ok (some x)) ∨
    (∃ c, r.head? = some c ∧ isSpTab c = false)

theorem parseOptionDelimiter_written (b : Str) (d : Char) (r : Str) (hb : Blanks b)
    (hd : d = ',' ∨ d = '|') : parseOptionDelimiter (b ++ d :: r) = .ok (some r) := by
  have h : eatSpace (b ++ d :: r) = (b, d :: r) := by
    apply eatSpace_written b _ hb
    intro c hc
    simp only [List.head?_cons, Option.some.injEq] at hc
    subst hc
    rcases hd with rfl | rfl <;> decide
  unfold parseOptionDelimiter
  rw [h]
  simp [(isDelimChar_iff d).2 hd]

theorem parseOptionDelimiter_other (b : Str) (d : Char) (r : Str) (hb : Blanks b)
    (hs : isSpTab d = false) (hd : isDelimChar d = false) :
    parseOptionDelimiter (b ++ d :: r) = .ok none := by
  have h : eatSpace (b ++ d :: r) = (b, d :: r) := by
    apply eatSpace_written b _ hb
    intro c hc
    simp only [List.head?_cons, Option.some.injEq] at hc
    subst hc; exact hs
  unfold parseOptionDelimiter
  rw [h]
  simp [hd]

theorem after_delimiter (b : Str) (d : Char) (r : Str) (hb : Blanks b)
    (hd : d = ',' ∨ d = '|') : AfterOption (b ++ d :: r) := by
  refine ⟨?_, Or.inr (Or.inl ⟨r, parseOptionDelimiter_written b d r hb hd⟩)⟩
  intro c hc
  cases b with
  | nil =>
    simp only [List.nil_append, List.head?_cons, Option.some.injEq] at hc
    subst hc
    rcases hd with rfl | rfl <;> simp
  | cons x xs =>
    simp only [List.cons_append, List.head?_cons, Option.some.injEq] at hc
    subst hc
    rcases hb x (by simp) with rfl | rfl <;> simp

theorem after_gap (gap line r : Str) (hg : Blanks gap) (hw : line ≠ [] → 2 ≤ gap.length) :
    AfterOption (gap ++ line ++ '\n' :: r) := by
  have sp : ∀ x ∈ gap, pyIsSpace x = true := by
    intro x hx
    rcases hg x hx with rfl | rfl <;> decide
  constructor
  · intro c hc
    match gap, hg, hw, hc with
    | [], _, hw, hc =>
      have : line = [] := by
        cases line with
        | nil => rfl
        | cons => simp at hw
      subst this
      simp at hc; subst hc; simp
    | x :: xs, hg, _, hc =>
      simp only [List.cons_append, List.head?_cons, Option.some.injEq] at hc
      subst hc
      rcases hg x (by simp) with rfl | rfl <;> simp
  · match gap, hg, hw, sp with
    | [], _, hw, _ =>
      right; right
      have : line = [] := by
        cases line with
        | nil => rfl
        | cons => simp at hw
      subst this
      exact ⟨'\n', rfl, by decide⟩
    | [x], hg, hw, sp =>
      left
      have : line = [] := by
        cases line with
        | nil => rfl
        | cons => simp at hw
      subst this
      have hx := sp x (by simp)
      have : pyIsSpace '\n' = true := by decide
      simp [twoSpaces, hx, this]
    | x :: y :: xs, hg, _, sp =>
      left
      simp [twoSpaces, sp x (by simp), sp y (by simp)]

/-- The text of the metavar of an option. -/
def attachedText (a : Attached) : Str :=
  match a with
  | .none => []
  | .equals m => '=' :: m
  | .optional m => '[' :: '=' :: m ++ [']']
  | .space m => ' ' :: m

theorem option_text (l : OptionLayout) : l.text = l.blanks ++ l.word ++ attachedText l.attached := rfl

theorem metavarAfter_written (l : OptionLayout) (hl : l.Usual) (r : Str) (hr : AfterOption r) :
    metavarAfter l.word (attachedText l.attached ++ r) = .ok (l.meaning, r) := by
  have hr0 : ∀ c, r.head? = some c → c ≠ '[' ∧ c ≠ '=' := by
    intro c hc
    rcases hr.stop c hc with rfl | rfl | rfl | rfl | rfl <;> decide
  cases ha : l.attached with
  | none =>
    simp only [attachedText, OptionLayout.meaning, ha, List.nil_append]
    unfold metavarAfter
    rw [if_neg (by
      intro h
      cases r with
      | nil => simp at h
      | cons c cs =>
        have := (hr0 c rfl).1
        simp at h; exact this h.1),
      if_neg (by
      intro h
      exact (hr0 '=' h).2 rfl)]
    rcases hr.found with h | ⟨x, h⟩ | ⟨c, h1, h2⟩
    · rw [if_pos h]
    · split
      · rfl
      · rw [h]
    · split
      · rfl
      · cases r with
        | nil => simp at h1
        | cons d ds =>
          simp only [List.head?_cons, Option.some.injEq] at h1
          subst h1
          by_cases hd : d = ',' ∨ d = '|'
          · have := parseOptionDelimiter_written [] d ds (by simp [Blanks]) hd
            simp only [List.nil_append] at this
            rw [this]
          · have := parseOptionDelimiter_other [] d ds (by simp [Blanks]) h2
              (by rw [← Bool.not_eq_true, isDelimChar_iff]; exact hd)
            simp only [List.nil_append] at this
            rw [this]
            simp [h2]
  | equals m =>
    simp only [attachedText, OptionLayout.meaning, ha]
    unfold metavarAfter
    rw [if_neg (by intro h; simp at h), if_pos (by simp)]
    simp only [List.cons_append, List.tail_cons, parseMetavar_written (hl.equals m ha) r hr.stop]
  | optional m =>
    simp only [attachedText, OptionLayout.meaning, ha]
    unfold metavarAfter
    rw [if_pos (by simp)]
    have hm : Metavar true ('[' :: '=' :: m ++ [']']) := by
      have := Metavar.group (closed := true) Pair.square (body := '=' :: m) (m := [])
        (by simp [hl.optional m ha]) Metavar.nil
      simpa using this
    rw [parseMetavar_written hm r hr.stop]
  | space m =>
    simp only [attachedText, OptionLayout.meaning, ha]
    obtain ⟨hm, c, m', rfl, hc⟩ := hl.space m ha
    have e1 : isSpTab c = false ∧ isDelimChar c = false := by
      cases hm with
      | char h =>
        obtain ⟨h1, h2, h3, h4, h5, h6⟩ := h
        simp [isSpTab, isDelimChar, h1, h2, h4, h5]
      | group h =>
        have := pair_opening h
        simp only [Bool.or_eq_false_iff] at this
        exact ⟨this.1.1, this.2⟩
      | unclosed h => exact absurd h (by decide)
    unfold metavarAfter
    rw [if_neg (by intro h; simp at h), if_neg (by simp), if_neg (by simp [twoSpaces, hc])]
    have := parseOptionDelimiter_other [' '] c (m' ++ r) (by simp [Blanks]) e1.1 e1.2
    have e : (' ' :: (c :: m')) ++ r = [' '] ++ c :: (m' ++ r) := by simp
    rw [e, this]
    have e2 : isSpTab ' ' = true := by decide
    have e3 : parseMetavar (c :: (m' ++ r)) = (c :: m', r) := parseMetavar_written hm r hr.stop
    simp [e2, e3]

theorem attached_break (l : OptionLayout) (r : Str) (hr : AfterOption r) :
    ∀ c, (attachedText l.attached ++ r).head? = some c → isBreakChar c = true := by
  intro c hc
  have hr0 : ∀ c, r.head? = some c → isBreakChar c = true := by
    intro c hc
    rcases hr.stop c hc with rfl | rfl | rfl | rfl | rfl <;> decide
  cases ha : l.attached with
  | none => rw [ha] at hc; exact hr0 c (by simpa [attachedText] using hc)
  | equals m => rw [ha] at hc; simp [attachedText] at hc; subst hc; decide
  | optional m => rw [ha] at hc; simp [attachedText] at hc; subst hc; decide
  | space m => rw [ha] at hc; simp [attachedText] at hc; subst hc; decide

theorem parseOptionWithMetavar_written (l : OptionLayout) (hl : l.Usual) (r : Str)
    (hr : AfterOption r) : parseOptionWithMetavar (l.text ++ r) = .ok (some (l.meaning, r)) := by
  unfold parseOptionWithMetavar
  rw [option_text, List.append_assoc,
    parseOptionString_written _ _ _ hl.blanks hl.word (attached_break l r hr)]
  dsimp only
  rw [metavarAfter_written l hl r hr]

theorem option_text_length (l : OptionLayout) (hl : l.Usual) : 1 ≤ l.text.length := by
  have := hl.word.hyphen
  rw [option_text]
  cases h : l.word with
  | nil => rw [h] at this; simp at this
  | cons => simp; omega

/-- The options of an entry, followed by something that is no delimiter. -/
theorem helpOptionsGo_written (n : Nat) (l : OptionLayout) (hl : l.Usual)
    (more : List (Str × Char × OptionLayout))
    (hm : ∀ m ∈ more, Blanks m.1 ∧ (m.2.1 = ',' ∨ m.2.1 = '|') ∧ m.2.2.Usual)
    (r : Str) (hr : AfterOption r) (hd : parseOptionDelimiter r = .ok none)
    (hn : (l.text ++ moreText more ++ r).length < n) :
    helpOptionsGo n (l.text ++ moreText more ++ r) =
      .ok (l.meaning :: more.map (fun m => m.2.2.meaning), r) := by
  induction more generalizing n l with
  | nil =>
    cases n with
    | zero => omega
    | succ n =>
      have h1 := option_text_length l hl
      simp only [moreText, List.append_nil, helpOptionsGo]
      rw [if_neg (by
        intro h
        have := congrArg List.length h
        simp only [List.length_append, List.length_nil] at this; omega)]
      rw [parseOptionWithMetavar_written l hl r hr]
      simp only [hd, List.map_nil]
  | cons m ms ih =>
    obtain ⟨b, d, l'⟩ := m
    obtain ⟨hb, hd', hl'⟩ := hm _ List.mem_cons_self
    cases n with
    | zero => omega
    | succ n =>
      have h1 := option_text_length l hl
      have e : l.text ++ moreText ((b, d, l') :: ms) ++ r =
          l.text ++ (b ++ d :: (l'.text ++ moreText ms ++ r)) := by simp [moreText]
      rw [e] at hn ⊢
      simp only [helpOptionsGo]
      rw [if_neg (by
        intro h
        have := congrArg List.length h
        simp at this)]
      rw [parseOptionWithMetavar_written l hl _ (after_delimiter b d _ hb hd')]
      dsimp only
      rw [parseOptionDelimiter_written b d _ hb hd']
      dsimp only
      rw [ih n l' hl' (fun m h => hm m (by simp [h])) (by simp at hn ⊢; omega)]
      simp

/-! ### The description -/

theorem parseTrailing_written (b l r : Str) (hb : Blanks b) (hne : b ≠ []) (hl : DescriptionLine l)
    (hd : l.head? = some '-' → 10 ≤ b.length) :
    parseTrailing (b ++ l ++ '\n' :: r) = some (l ++ ['\n'], r) := by
  have h : eatSpace (b ++ (l ++ '\n' :: r)) = (b, l ++ '\n' :: r) := by
    apply eatSpace_written b _ hb
    intro c hc
    cases l with
    | nil => simp at hc; subst hc; decide
    | cons x xs =>
      simp only [List.cons_append, List.head?_cons, Option.some.injEq] at hc
      subst hc
      have := hl.2
      simp at this
      simp [isSpTab, this]
  cases b with
  | nil => exact absurd rfl hne
  | cons c cs =>
    unfold parseTrailing
    have hc : isSpTab c = true := (isSpTab_iff c).2 (hb c (by simp))
    simp only [List.cons_append, List.append_assoc] at h ⊢
    simp only [hc, if_true, h]
    rw [if_neg]
    · rw [eatLine_written l r hl.1]
    · rintro ⟨h1, h2⟩
      have : l.head? = some '-' := by
        cases l with
        | nil => simp at h1
        | cons => simpa using h1
      have := hd this
      omega

theorem trailingGo_layout (n : Nat) (ls : List (Str × Str))
    (hls : ∀ l ∈ ls, Blanks l.1 ∧ l.1 ≠ [] ∧ DescriptionLine l.2 ∧
      (l.2.head? = some '-' → 10 ≤ l.1.length))
    (r : Str) (hr : parseTrailing r = none) (hn : (furtherText ls).length < n) :
    trailingGo n (furtherText ls ++ r) = (furtherLines ls, r) := by
  induction ls generalizing n with
  | nil =>
    cases n with
    | zero => omega
    | succ n => simp [furtherText, furtherLines, trailingGo, hr]
  | cons l ls ih =>
    obtain ⟨b, l⟩ := l
    obtain ⟨h1, h2, h3, h4⟩ := hls _ List.mem_cons_self
    cases n with
    | zero => omega
    | succ n =>
      have e : furtherText ((b, l) :: ls) ++ r = b ++ l ++ '\n' :: (furtherText ls ++ r) := by
        simp [furtherText]
      rw [e]
      simp only [trailingGo, parseTrailing_written b l _ h1 h2 h3 h4]
      rw [if_neg (by simp), ih n (fun l h => hls l (by simp [h])) (by
        simp [furtherText] at hn; omega)]
      simp [furtherLines]

theorem entry_text (e : EntryLayout) (r : Str) :
    e.text ++ r = e.first.text ++ moreText e.more ++
      (e.gap ++ e.line ++ '\n' :: (furtherText e.further ++ r)) := by
  simp [EntryLayout.text]

theorem parseDescription_layout (e : EntryLayout) (he : e.Usual) (r : Str)
    (hr : parseTrailing r = none) :
    parseDescription (e.gap ++ e.line ++ '\n' :: (furtherText e.further ++ r)) =
      (e.line ++ '\n' :: furtherLines e.further, r) := by
  have h : eatSpace (e.gap ++ (e.line ++ '\n' :: (furtherText e.further ++ r))) =
      (e.gap, e.line ++ '\n' :: (furtherText e.further ++ r)) := by
    apply eatSpace_written _ _ he.gap
    intro c hc
    cases hl : e.line with
    | nil => rw [hl] at hc; simp at hc; subst hc; decide
    | cons x xs =>
      have := he.line.1.2
      rw [hl] at hc this
      simp only [List.cons_append, List.head?_cons, Option.some.injEq] at hc
      subst hc
      simp at this
      simp [isSpTab, this]
  unfold parseDescription
  rw [List.append_assoc, h]
  dsimp only
  rw [eatLine_written _ _ he.line.1.1]
  dsimp only
  rw [trailingGo_layout _ _ he.further r hr (by simp; omega)]
  simp

theorem gap_no_delimiter (e : EntryLayout) (he : e.Usual) (r : Str) :
    parseOptionDelimiter (e.gap ++ e.line ++ '\n' :: r) = .ok none := by
  cases hl : e.line with
  | nil =>
    have := parseOptionDelimiter_other e.gap '\n' r he.gap (by decide) (by decide)
    simpa using this
  | cons x xs =>
    obtain ⟨⟨_, h1, h2⟩, h3, h4⟩ := he.line
    rw [hl] at h1 h2 h3 h4
    simp at h1 h2 h3 h4
    have := parseOptionDelimiter_other e.gap x (xs ++ '\n' :: r) he.gap
      (by simp [isSpTab, h1, h2]) (by simp [isDelimChar, h3, h4])
    simpa using this

theorem parseEntry_written (e : EntryLayout) (he : e.Usual) (r : Str)
    (hr : parseTrailing r = none) :
    parseOptionsWithDescription (e.text ++ r) = .ok (some (e.meaning, r)) := by
  unfold parseOptionsWithDescription
  rw [entry_text]
  have ha := after_gap e.gap e.line (furtherText e.further ++ r) he.gap he.wide
  rw [helpOptionsGo_written _ e.first he.first e.more he.more _ ha
    (gap_no_delimiter e he _) (by omega)]
  dsimp only
  rw [if_neg (by simp)]
  unfold withDescription
  rw [if_pos, parseDescription_layout e he r hr]
  · rfl
  · cases hg : e.gap with
    | nil =>
      have : e.line = [] := by
        cases hl : e.line with
        | nil => rfl
        | cons => have := he.wide (by simp [hl]); rw [hg] at this; simp at this
      rw [this]
      simp [isSpTab]
    | cons x xs =>
      have := he.gap x (by rw [hg]; simp)
      simp [(isSpTab_iff x).2 this]

/-! ### The whole text -/

theorem dash_not_trailing (b r : Str) (hb : Blanks b) (hs : b.length < 10) :
    parseTrailing (b ++ '-' :: r) = none := by
  have h : eatSpace (b ++ '-' :: r) = (b, '-' :: r) := by
    apply eatSpace_written b _ hb
    intro c hc
    simp at hc; subst hc; decide
  cases b with
  | nil => rfl
  | cons c cs =>
    unfold parseTrailing
    simp only [List.cons_append] at h ⊢
    rw [h]
    have hc : isSpTab c = true := (isSpTab_iff c).2 (hb c (by simp))
    rw [if_pos hc]
    simp only [List.head?_cons]
    rw [if_pos ⟨trivial, hs⟩]

theorem usual_not_trailing (ps : List Part) (h : Usual true ps) : parseTrailing (text ps) = none := by
  cases h with
  | nil => rfl
  | @other _ l ps h1 h2 h3 h4 =>
    have := h2 rfl
    cases l with
    | nil => rfl
    | cons c cs =>
      simp at this
      have : isSpTab c = false := by simp [isSpTab, this]
      simp [text, Part.text, parseTrailing, this]
  | @entry _ e ps h1 h2 =>
    have hw := h1.first.word.hyphen
    cases hww : e.first.word with
    | nil => rw [hww] at hw; simp at hw
    | cons c cs =>
      rw [hww] at hw
      simp at hw
      subst hw
      have := dash_not_trailing e.first.blanks
        (cs ++ attachedText e.first.attached ++ moreText e.more ++ e.gap ++ e.line ++
          '\n' :: furtherText e.further ++ text ps) h1.first.blanks h1.short
      simpa [text, Part.text, EntryLayout.text, option_text, hww] using this

theorem other_no_option (l r : Str)
    (h3 : ∀ b t, l = b ++ t → Blanks b → t.head? ≠ some '-') :
    parseOptionsWithDescription (l ++ '\n' :: r) = .ok none := by
  have h : parseOptionString (l ++ '\n' :: r) = none := by
    unfold parseOptionString
    have : ∀ l : Str, (∀ b t, l = b ++ t → Blanks b → t.head? ≠ some '-') →
        ∃ c cs, (eatSpace (l ++ '\n' :: r)).2 = c :: cs ∧ c ≠ '-' := by
      intro l hl
      induction l with
      | nil => exact ⟨'\n', r, by simp [eatSpace, isSpTab], by decide⟩
      | cons x xs ih =>
        by_cases hx : isSpTab x = true
        · have hx' := (isSpTab_iff x).1 hx
          obtain ⟨c, cs, h1, h2⟩ := ih (by
            intro b t e hb
            exact hl (x :: b) t (by simp [e]) (by
              intro y hy
              rcases List.mem_cons.1 hy with rfl | hy
              · exact hx'
              · exact hb y hy))
          refine ⟨c, cs, ?_, h2⟩
          simp only [eatSpace] at h1 ⊢
          simp [List.dropWhile, hx, h1]
        · refine ⟨x, xs ++ '\n' :: r, ?_, ?_⟩
          · simp only [Bool.not_eq_true] at hx
            simp [eatSpace, List.dropWhile, hx]
          · intro e
            exact hl [] (x :: xs) rfl (by simp [Blanks]) (by simp [e])
    obtain ⟨c, cs, h1, h2⟩ := this l h3
    rw [h1]
    simp [h2]
  unfold parseOptionsWithDescription
  have : helpOptionsGo ((l ++ '\n' :: r).length + 1) (l ++ '\n' :: r) = .ok ([], l ++ '\n' :: r) := by
    simp only [helpOptionsGo]
    rw [if_neg (by simp)]
    simp [parseOptionWithMetavar, h]
  rw [this]
  rfl

theorem parseHelpGo_written (n : Nat) (after : Bool) (ps : List Part) (h : Usual after ps)
    (hn : (text ps).length < n) : parseHelpGo n (text ps) = .ok (ps.map Part.meaning) := by
  induction ps generalizing n after with
  | nil =>
    cases n with
    | zero => omega
    | succ n => simp [text, parseHelpGo]
  | cons p ps ih =>
    cases n with
    | zero => omega
    | succ n =>
      cases h with
      | @other _ l _ h1 h2 h3 h4 =>
        have e : text (.other l :: ps) = l ++ '\n' :: text ps := by simp [text, Part.text]
        rw [e] at hn ⊢
        simp only [parseHelpGo]
        rw [if_neg (by simp), other_no_option l _ h3]
        dsimp only
        rw [eatLine_written l _ h1]
        dsimp only
        rw [ih n false h4 (by simp at hn; omega)]
        rfl
      | @entry _ e _ h1 h2 =>
        have e' : text (.entry e :: ps) = e.text ++ text ps := by simp [text, Part.text]
        rw [e'] at hn ⊢
        have h0 : 1 ≤ e.text.length := by simp [EntryLayout.text]; omega
        simp only [parseHelpGo]
        rw [if_neg (by
          intro h
          have := congrArg List.length h
          simp only [List.length_append, List.length_nil] at this; omega), parseEntry_written e h1 _ (usual_not_trailing ps h2)]
        dsimp only
        rw [ih n true h2 (by simp at hn; omega)]
        rfl

/-- **C62**: a help text in the usual layout is read as what it says: every
entry with its options, their metavars and its description, and every other line
unchanged, in their order. -/
theorem C62_layout (ps : List Part) (h : Usual false ps) :
    parseHelp (text ps) = .ok (ps.map Part.meaning) :=
  parseHelpGo_written _ false ps h (by omega)

/-! ### Concrete cases -/

/-- An option given by its parts. -/
def optionAt (blanks word : String) (a : Attached) : OptionLayout :=
  ⟨blanks.toList, word.toList, a⟩

/-- The entry

```
  -f, --file <a file>  read from
                       -file-
```
-/
def fileEntry : EntryLayout where
  first := optionAt "  " "-f" .none
  more := [("".toList, ',', optionAt " " "--file" (.space "<a file>".toList))]
  gap := "  ".toList
  line := "read from".toList
  further := [("                       ".toList, "-file-".toList)]

/-- The entry

```
      --color[=WHEN]|--colour=WHEN
    use colors
```
-/
def colorEntry : EntryLayout where
  first := optionAt "      " "--color" (.optional "WHEN".toList)
  more := [("".toList, '|', optionAt "" "--colour" (.equals "WHEN".toList))]
  gap := []
  line := []
  further := [("    ".toList, "use colors".toList)]

/-- A help text with two lines of other text and two entries. -/
def helpParts : List Part :=
  [.other "usage: prog [-h]".toList, .other [], .entry fileEntry, .entry colorEntry]

theorem blanks_of {s : Str} (h : s.all (fun c => c == ' ' || c == '\t') = true) : Blanks s := by
  intro c hc
  have := List.all_eq_true.1 h c hc
  simpa using this

theorem word_of {o : Str} (h : o.head? = some '-' ∧ (o.all fun c => !isBreakChar c) = true ∧
    o ≠ ['-'] ∧ o ≠ ['-', '-']) : OptionWord o := by
  refine ⟨h.1, ?_, h.2.2.1, h.2.2.2⟩
  intro c hc
  have := List.all_eq_true.1 h.2.1 c hc
  rw [← isBreakChar_iff]
  simpa using this

theorem metavar_of_plain {s : Str} (h : s.all (fun c => !isSpTab c && c != '\n' && !isDelimChar c &&
    (closingOf c).isNone) = true) : Metavar true s := by
  induction s with
  | nil => exact Metavar.nil
  | cons c cs ih =>
    simp only [List.all_cons, Bool.and_eq_true] at h
    refine Metavar.char ?_ (ih (by simpa using h.2))
    obtain ⟨⟨⟨⟨h1, h2⟩, h3⟩, h4⟩, -⟩ := h
    simp [isSpTab] at h1
    simp at h2
    simp [isDelimChar] at h3
    refine ⟨h1.1, h1.2, h2, h3.1, h3.2, (closingOf_none c).1 ?_⟩
    simpa using h4

theorem fileEntry_usual : fileEntry.Usual where
  first := ⟨blanks_of (by decide), word_of (by decide), by simp [fileEntry, optionAt],
    by simp [fileEntry, optionAt], by simp [fileEntry, optionAt]⟩
  short := by decide
  more := by
    intro m hm
    simp only [fileEntry, List.mem_singleton] at hm
    subst hm
    refine ⟨blanks_of (by decide), Or.inl rfl, blanks_of (by decide), word_of (by decide),
      by simp [optionAt], by simp [optionAt], ?_⟩
    intro m hm
    simp only [optionAt, Attached.space.injEq] at hm
    subst hm
    exact ⟨Metavar.group (body := "a file".toList) Pair.angle (by decide) Metavar.nil,
      '<', _, rfl, by decide⟩
  gap := blanks_of (by decide)
  wide := by decide
  line := ⟨⟨by decide, by decide, by decide⟩, by decide, by decide⟩
  further := by
    intro l hl
    simp only [fileEntry, List.mem_singleton] at hl
    subst hl
    exact ⟨blanks_of (by decide), by decide, ⟨by decide, by decide, by decide⟩, by decide⟩

theorem colorEntry_usual : colorEntry.Usual where
  first := ⟨blanks_of (by decide), word_of (by decide), by simp [colorEntry, optionAt],
    by
      intro m hm
      simp only [colorEntry, optionAt, Attached.optional.injEq] at hm
      subst hm; decide,
    by simp [colorEntry, optionAt]⟩
  short := by decide
  more := by
    intro m hm
    simp only [colorEntry, List.mem_singleton] at hm
    subst hm
    refine ⟨blanks_of (by decide), Or.inr rfl, blanks_of (by decide), word_of (by decide),
      ?_, by simp [optionAt], by simp [optionAt]⟩
    intro m hm
    simp only [optionAt, Attached.equals.injEq] at hm
    subst hm
    exact metavar_of_plain (by decide)
  gap := blanks_of (by decide)
  wide := by decide
  line := ⟨⟨by decide, by decide, by decide⟩, by decide, by decide⟩
  further := by
    intro l hl
    simp only [colorEntry, List.mem_singleton] at hl
    subst hl
    exact ⟨blanks_of (by decide), by decide, ⟨by decide, by decide, by decide⟩, by decide⟩

/-- The example meets the hypotheses of `C62_layout`, and this is what it gives. -/
theorem C62_example :
    Usual false helpParts ∧
    text helpParts = ("usage: prog [-h]\n\n  -f, --file <a file>  read from\n" ++
      "                       -file-\n      --color[=WHEN]|--colour=WHEN\n    use colors\n").toList ∧
    helpParts.map Part.meaning =
      [.unparsed "usage: prog [-h]\n".toList, .unparsed "\n".toList,
       .options [⟨"-f".toList, none, false⟩, ⟨"--file".toList, some "<a file>".toList, false⟩]
         (some "read from\n-file-\n".toList),
       .options [⟨"--color".toList, some "[=WHEN]".toList, true⟩,
         ⟨"--colour".toList, some "WHEN".toList, false⟩] (some "\nuse colors\n".toList)] := by
  refine ⟨?_, by decide +kernel, by decide +kernel⟩
  refine Usual.other (by decide) (by decide) ?_ (Usual.other (by decide) (by decide) ?_
    (Usual.entry fileEntry_usual (Usual.entry colorEntry_usual Usual.nil)))
  · intro b r e hb
    cases b with
    | nil => rw [List.nil_append] at e; rw [← e]; decide
    | cons x xs =>
      have : x = 'u' := by
        have := congrArg List.head? e
        simpa using this.symm
      have hx := hb x (by simp)
      rw [this] at hx
      simp at hx
  · intro b r e _
    have : r = [] := by
      have := congrArg List.length e
      simp at this
      exact List.length_eq_zero_iff.1 (by omega)
    simp [this]

/-! ### Where the property fails -/

/-- **C54** is false as stated: a text that ends with an option and no newline
makes the parser raise `IndexError`. -/
theorem C54_no_newline : parseHelp "  -h, --help".toList = .error .crash := by rfl

/-- **C54** is false as stated also for texts that end in a newline: a bracket
that is not closed is read to the end of the text. -/
theorem C54_unclosed : parseHelp "  -f <file\n".toList = .error .crash := by rfl

/-- The text of `C62_example` ends in a newline and every opening bracket in it is
closed later, so it meets the hypotheses of `C54_total_partial`. -/
theorem C54_example :
    (∃ p, text helpParts = p ++ ['\n']) ∧
    (∀ l o q r, Pair o q → text helpParts = l ++ o :: r → q ∈ r) ∧
    ∃ items, parseHelp (text helpParts) = .ok items ∧ items.length = 4 ∧
      Covers items (text helpParts) := by
  have h1 : ∃ p, text helpParts = p ++ ['\n'] := ⟨(text helpParts).dropLast, by decide⟩
  have h2 : ∀ l o q r, Pair o q → text helpParts = l ++ o :: r → q ∈ r := by
    have key : ∀ s : Str, (List.range s.length).all (fun i => (s[i]?.bind closingOf).all
        fun q => (s.drop (i + 1)).contains q) = true →
        ∀ l o q r, Pair o q → s = l ++ o :: r → q ∈ r := by
      intro s hs l o q r hp e
      have := List.all_eq_true.1 hs l.length (by rw [e]; simp)
      rw [e] at this
      simpa [(closingOf_some o q).2 hp] using this
    exact key _ (by decide +kernel)
  have h := C62_layout helpParts C62_example.1
  exact ⟨h1, h2, _, h, rfl, C54_covers _ _ h⟩

end CC
