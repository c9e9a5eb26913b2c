import Verif.Lemmas.PatternOut
/-!
# C13, C14: converting Bash globs

`readGlob bashGlob` says how Bash reads the given text, `readRegex` how Fish reads the regular expression,
`readGlob zshGlob` how Zsh reads the Zsh pattern. `Glob.AltLang` and `Rx.AltLang` say which words match.
-/

namespace CC

/-- There is a quote character in the text. -/
def HasQuotes (t : Str) : Prop := '\'' ∈ t ∨ '"' ∈ t

/-- **C13**, in part. Let `t` be a text that Bash reads as a glob and that the converter accepts. If there
is no backslash, no caret and no `[!(` in it, no literal `$`, ranges in brackets are in order and, if quotes
are used, brackets do not list a `-`, then the result is a regular expression that matches the same words
(without newlines). Missing: the texts excluded, where the claim is false; see the theorems below. -/
theorem C13_regex_partial (t r : Str) (alts : List (List Glob)) (hr : bashGlobToRegex t = .ok r)
    (hg : readGlob bashGlob t = some alts) (hb : '\\' ∉ t) (hc : '^' ∉ t) (hn : ¬ S "[!(" <:+: t)
    (he : Glob.AltEach (fun c => c ≠ '$')
      (fun r => r.1.toNat ≤ r.2.toNat ∧ (HasQuotes t → r.1 ≠ '-' ∧ r.2 ≠ '-')) alts) :
    ∃ rx, readRegex r = some rx ∧ ∀ w, '\n' ∉ w → (Rx.AltLang rx w ↔ Glob.AltLang alts w) := by
  unfold bashGlobToRegex at hr
  split at hr
  · cases hr
  · rename_i ps hps
    obtain ⟨gs, rfl, hs⟩ := readPats_reads (Q := HasQuotes t) hps (seqClean_of_regex ps hr) ⟨hb, hc, hn, id⟩ hg
    obtain ⟨rx, h1, h2⟩ := seq_regex (HasQuotes t) ps hs hr he.1
    refine ⟨[rx], ?_, ?_⟩
    · have := readRegex_bars [r] [rx] (.cons h1 .nil) (by simp)
      simpa [joinWith] using this
    · intro w hw
      simp only [Rx.AltLang, Glob.AltLang, or_false]
      exact h2 w hw

/-- **C14**, in part. Let `t` be a text that Bash reads as a glob and that the converter accepts. If there
is no backslash, no caret and no `[!(` in it, no literal character that Zsh would take for an operator, no
quote, blank or `$` in brackets and, if quotes are used, brackets do not list a `-`, then Zsh reads the result
as the same pattern, so it matches the same words. Missing: the texts excluded. -/
theorem C14_zsh_partial (t z : Str) (alts : List (List Glob)) (hz : bashGlobToZsh t = .ok z) (hne : z ≠ [])
    (hg : readGlob bashGlob t = some alts) (hb : '\\' ∉ t) (hc : '^' ∉ t) (hn : ¬ S "[!(" <:+: t)
    (he : Glob.AltEach (fun c => c ∉ S "()|#^~<>$`&;\t\n")
      (fun r => r.1 ∉ S "'\"$` \t\n" ∧ r.2 ∉ S "'\"$` \t\n" ∧ (HasQuotes t → r.1 ≠ '-' ∧ r.2 ≠ '-')) alts) :
    readGlob zshGlob z = some alts := by
  unfold bashGlobToZsh at hz
  split at hz
  · cases hz
  · rename_i ps hps
    obtain ⟨gs, rfl, hs⟩ := readPats_reads (Q := HasQuotes t) hps (seqClean_of_zsh ps hz) ⟨hb, hc, hn, id⟩ hg
    have h1 := seq_zsh (HasQuotes t) ps hs hz he.1
    obtain ⟨s1, r1, o1, f1⟩ := h1.2 {} (Or.inl rfl)
    have hfr : s1.frames = [] := by
      have := congrArg GState.frames f1
      simpa [flush_frames] using this
    unfold readGlob
    rw [if_neg hne, r1]
    simp only [hfr, f1]
    rfl

theorem toOption_ok {α : Type} {r : Except Err α} {a : α} (h : r.toOption = some a) : r = .ok a := by
  cases r with
  | error e => cases h
  | ok b => cases h; rfl

/-- The error of a result. -/
def errOf {α : Type} : Except Err α → Option Err
  | .error e => some e
  | .ok _ => none

theorem errOf_error {α : Type} {r : Except Err α} {e : Err} (h : errOf r = some e) : r = .error e := by
  cases r with
  | error e' => cases h; rfl
  | ok b => cases h

/-- A glob with quotes, brackets and nested extended globs meets the hypotheses of both theorems. -/
theorem C13_example :
    bashGlobToRegex (S "*.@(tar|t[g-x'!'])?(' old'?)") = .ok (S ".*\\.(tar|t[g-x!])( old.)?") ∧
    ∃ alts, readGlob bashGlob (S "*.@(tar|t[g-x'!'])?(' old'?)") = some alts ∧
      Glob.AltEach (fun c => c ≠ '$')
        (fun r => r.1.toNat ≤ r.2.toNat ∧ (HasQuotes (S "*.@(tar|t[g-x'!'])?(' old'?)") → r.1 ≠ '-' ∧ r.2 ≠ '-')) alts := by
  refine ⟨toOption_ok (by decide +kernel), [[.star, .lit '.', .ext '@' [[.lit 't', .lit 'a', .lit 'r'],
    [.lit 't', .cls false [('g', 'x'), ('!', '!')]]], .ext '?' [[.lit ' ', .lit 'o', .lit 'l', .lit 'd', .any]]]], rfl, ?_⟩
  simp [Glob.AltEach, Glob.SeqEach, Glob.Each]

/-- The same for the conversion to Zsh. -/
theorem C14_example :
    bashGlobToZsh (S "*.@(tar|t[g-x'!'])' old'?") = .ok (S "*.(tar|t[g-x'!'])' 'old?") ∧
    ∃ alts, readGlob bashGlob (S "*.@(tar|t[g-x'!'])' old'?") = some alts ∧
      Glob.AltEach (fun c => c ∉ S "()|#^~<>$`&;\t\n")
        (fun r => r.1 ∉ S "'\"$` \t\n" ∧ r.2 ∉ S "'\"$` \t\n" ∧
          (HasQuotes (S "*.@(tar|t[g-x'!'])' old'?") → r.1 ≠ '-' ∧ r.2 ≠ '-')) alts := by
  refine ⟨toOption_ok (by decide +kernel), [[.star, .lit '.', .ext '@' [[.lit 't', .lit 'a', .lit 'r'],
    [.lit 't', .cls false [('g', 'x'), ('!', '!')]]], .lit ' ', .lit 'o', .lit 'l', .lit 'd', .any]], rfl, ?_⟩
  simp [Glob.AltEach, Glob.SeqEach, Glob.Each, S]

/-! ### Where the claims are false -/

/-- A backslash quotes the next character in Bash. The converter copies it, and treats the star as a wildcard:
`\*` becomes `\.*`, which matches any number of dots and not the star. -/
theorem C13_backslash :
    bashGlobToRegex (S "\\*") = .ok (S "\\.*") ∧
    (∃ alts, readGlob bashGlob (S "\\*") = some alts ∧ Glob.AltLang alts (S "*") ∧ ¬ Glob.AltLang alts (S "..")) ∧
    ∃ rx, readRegex (S "\\.*") = some rx ∧ ¬ Rx.AltLang rx (S "*") ∧ Rx.AltLang rx (S "..") := by
  refine ⟨toOption_ok (by decide +kernel), ⟨[[.lit '*']], rfl, ?_, ?_⟩, [[.rep '*' (.chr '.')]], rfl, ?_, ?_⟩
  · simp [Glob.AltLang, Glob.SeqLang, Glob.Lang, S]
  · simp [Glob.AltLang, Glob.SeqLang, Glob.Lang, S]
  · simp only [Rx.AltLang, or_false]
    rw [rxSeq_single]
    simp only [Rx.Lang, if_true]
    intro h
    have : ∀ w, Repeat (fun w => w = ['.']) w → ∀ c ∈ w, c = '.' := by
      intro w hw
      induction hw with
      | nil => simp
      | cons ha _ ih =>
        subst ha
        intro c hc
        rcases List.mem_append.1 hc with hc | hc
        · simpa using hc
        · exact ih c hc
    exact absurd (this _ h '*' (by simp [S])) (by decide)
  · simp only [Rx.AltLang, or_false]
    rw [rxSeq_single]
    simp only [Rx.Lang, if_true]
    exact .cons (a := ['.']) rfl (.cons (a := ['.']) (b := []) rfl .nil)

/-- A caret negates brackets in Bash as well. The converter escapes it twice, `[^a]` becomes `[\\^a]`: a
backslash, a caret or an `a`. -/
theorem C13_caret :
    bashGlobToRegex (S "[^a]") = .ok (S "[\\\\^a]") ∧
    (∃ alts, readGlob bashGlob (S "[^a]") = some alts ∧ Glob.AltLang alts (S "b") ∧ ¬ Glob.AltLang alts (S "a")) ∧
    ∃ rx, readRegex (S "[\\\\^a]") = some rx ∧ ¬ Rx.AltLang rx (S "b") ∧ Rx.AltLang rx (S "a") := by
  refine ⟨toOption_ok (by decide +kernel), ⟨[[.cls true [('a', 'a')]]], rfl, ?_, ?_⟩, [[.cls false [('\\', '\\'), ('^', '^'), ('a', 'a')]]], rfl, ?_, ?_⟩ <;>
    simp [Glob.AltLang, Glob.SeqLang, Glob.Lang, Rx.AltLang, Rx.SeqLang, Rx.Lang, S, inRanges]

/-- Also where the caret is an ordinary character: `[a^]` becomes `[a\\^]`, which matches a backslash. -/
theorem C13_caret_inside :
    bashGlobToRegex (S "[a^]") = .ok (S "[a\\\\^]") ∧
    (∃ alts, readGlob bashGlob (S "[a^]") = some alts ∧ ¬ Glob.AltLang alts (S "\\")) ∧
    ∃ rx, readRegex (S "[a\\\\^]") = some rx ∧ Rx.AltLang rx (S "\\") := by
  refine ⟨toOption_ok (by decide +kernel), ⟨[[.cls false [('a', 'a'), ('^', '^')]]], rfl, ?_⟩, [[.cls false [('a', 'a'), ('\\', '\\'), ('^', '^')]]], rfl, ?_⟩ <;>
    simp [Glob.AltLang, Glob.SeqLang, Glob.Lang, Rx.AltLang, Rx.SeqLang, Rx.Lang, S, inRanges]

/-- `[!(]` is the negation of an opening parenthesis. The converter takes `!(` for the start of an extended
glob and drops the negation. -/
theorem C13_negated_parenthesis :
    bashGlobToRegex (S "[!(]") = .ok (S "[!(]") ∧
    (∃ alts, readGlob bashGlob (S "[!(]") = some alts ∧ Glob.AltLang alts (S "b") ∧ ¬ Glob.AltLang alts (S "(")) ∧
    ∃ rx, readRegex (S "[!(]") = some rx ∧ ¬ Rx.AltLang rx (S "b") ∧ Rx.AltLang rx (S "(") := by
  refine ⟨toOption_ok (by decide +kernel), ⟨[[.cls true [('(', '(')]]], rfl, ?_, ?_⟩, [[.cls false [('!', '!'), ('(', '(')]]], rfl, ?_, ?_⟩ <;>
    simp [Glob.AltLang, Glob.SeqLang, Glob.Lang, Rx.AltLang, Rx.SeqLang, Rx.Lang, S, inRanges]

/-- A quoted `-` in brackets becomes a range. -/
theorem C13_quoted_dash :
    bashGlobToRegex (S "['a-z']") = .ok (S "[a-z]") ∧
    (∃ alts, readGlob bashGlob (S "['a-z']") = some alts ∧ ¬ Glob.AltLang alts (S "m") ∧ Glob.AltLang alts (S "-")) ∧
    ∃ rx, readRegex (S "[a-z]") = some rx ∧ Rx.AltLang rx (S "m") ∧ ¬ Rx.AltLang rx (S "-") := by
  refine ⟨toOption_ok (by decide +kernel), ⟨[[.cls false [('a', 'a'), ('-', '-'), ('z', 'z')]]], rfl, ?_, ?_⟩, [[.cls false [('a', 'z')]]], rfl, ?_, ?_⟩ <;>
    simp [Glob.AltLang, Glob.SeqLang, Glob.Lang, Rx.AltLang, Rx.SeqLang, Rx.Lang, S, inRanges]

/-- A literal `$` is left as it is, although it is an anchor. -/
theorem C13_dollar :
    bashGlobToRegex (S "'$'") = .ok (S "$") ∧
    (∃ alts, readGlob bashGlob (S "'$'") = some alts ∧ Glob.AltLang alts (S "$")) ∧ readRegex (S "$") = none := by
  refine ⟨toOption_ok (by decide +kernel), ⟨[[.lit '$']], rfl, ?_⟩, rfl⟩
  simp [Glob.AltLang, Glob.SeqLang, Glob.Lang, S]

/-- A glob that starts with `!`, or with a stray closing bracket, is a glob for Bash, but the conversion
ends with an `AttributeError` and not with a `ValueError`. -/
theorem C13_crash :
    (∃ alts, readGlob bashGlob (S "!important") = some alts ∧ Glob.AltLang alts (S "!important")) ∧
    bashGlobToRegex (S "!important") = .error .crash ∧ bashGlobToZsh (S "a]") = .error .crash := by
  refine ⟨⟨[[.lit '!', .lit 'i', .lit 'm', .lit 'p', .lit 'o', .lit 'r', .lit 't', .lit 'a', .lit 'n', .lit 't']], rfl, ?_⟩, errOf_error (by decide +kernel), errOf_error (by decide +kernel)⟩
  simp [Glob.AltLang, Glob.SeqLang, Glob.Lang, S]

/-- A quoted parenthesis is not quoted for Zsh: the literal `(a)` becomes a group. -/
theorem C14_parenthesis :
    bashGlobToZsh (S "'(a)'") = .ok (S "(a)") ∧
    (∃ alts, readGlob bashGlob (S "'(a)'") = some alts ∧ Glob.AltLang alts (S "(a)")) ∧
    ∃ alts, readGlob zshGlob (S "(a)") = some alts ∧ ¬ Glob.AltLang alts (S "(a)") ∧ Glob.AltLang alts (S "a") := by
  refine ⟨toOption_ok (by decide +kernel), ⟨[[.lit '(', .lit 'a', .lit ')']], rfl, ?_⟩, [[.ext '@' [[.lit 'a']]]], rfl, ?_, ?_⟩ <;>
    simp [Glob.AltLang, Glob.SeqLang, Glob.Lang, S]

/-- A quote in brackets is not quoted for Zsh: the pattern is not closed. -/
theorem C14_quote_in_brackets :
    bashGlobToZsh (S "[\"'\"]") = .ok (S "[']") ∧
    (∃ alts, readGlob bashGlob (S "[\"'\"]") = some alts ∧ Glob.AltLang alts (S "'")) ∧
    readGlob zshGlob (S "[']") = none := by
  refine ⟨toOption_ok (by decide +kernel), ⟨[[.cls false [('\'', '\'')]]], rfl, ?_⟩, rfl⟩
  simp [Glob.AltLang, Glob.SeqLang, Glob.Lang, S, inRanges]

end CC
