import Verif.Lemmas.ZshLex
import Verif.Lemmas.FishRuns
import Verif.Lemmas.Choices
import Verif.Model.ZshFile
/-!
# Lemmas: how Zsh reads the lines of a completion function
-/

namespace CC
namespace ZshLex
open ZshText
open ShellGrammar (Expr)

/-! ## Words -/

/-- Before a blank, a line break or an operator, a word ends. -/
theorem reads_of_run {t w : Str} {ts : List Tok} (h : ∀ o, run ⟨.gap, [], o⟩ t = some ⟨.word, w, o ++ ts⟩) : Reads t (ts ++ [.word w]) := by
  intro o c hc
  rw [run_append, h, Option.bind_some]
  simp only [run, step]
  have hc' : (c = ' ' ∨ c = '\t' ∨ c = '\n' ∨ c = '&' ∨ c = '|' ∨ c = ';' ∨ c = ')') ∧
      ¬ (c = '\'') ∧ ¬ (c = '"') ∧ ¬ (c = '\\') ∧ ¬ (c = '(') ∧ ¬ (c = '$') ∧ ¬ (c = '<' ∨ c = '>' ∨ c = '`') := by
    simp only [List.mem_cons, List.not_mem_nil, or_false] at hc
    rcases hc with rfl | rfl | rfl | rfl | rfl <;> decide
  obtain ⟨h1, h2, h3, h4, h5, h6, h7⟩ := hc'
  unfold wordStep
  rw [if_neg h2, if_neg h3, if_neg h4, if_neg h5, if_neg h6, if_neg h7, if_pos h1, List.append_assoc]
  cases gapStep (o ++ (ts ++ [.word w])) c <;> rfl

/-- Characters of the name of a helper function. -/
def idChar (c : Char) : Bool := isAsciiAlnum c || c == '_'

theorem idChar_safe {c : Char} (h : idChar c = true) : isSafeChar c = true := by
  unfold idChar at h
  unfold isSafeChar
  rw [Bool.or_eq_true] at h
  rcases h with h | h <;> simp [h]

theorem realName_ne (pre n : Str) : realName pre n ≠ [] := by simp [realName, S]

theorem realName_id {pre n : Str} (hp : ∀ c ∈ pre, idChar c = true) (hn : ∀ c ∈ n, idChar c = true) : ∀ c ∈ realName pre n, idChar c = true := by
  intro c hc
  unfold realName at hc
  simp only [List.mem_append] at hc
  rcases hc with (h | h) | h
  · exact hp c h
  · have : ∀ c ∈ S "__", idChar c = true := by decide +kernel
    exact this c h
  · exact hn c h

theorem query_id : ∀ c ∈ S "query", idChar c = true := by decide +kernel
theorem match_id : ∀ c ∈ S "option_match", idChar c = true := by decide +kernel
theorem contains_id : ∀ c ∈ S "array_contains", idChar c = true := by decide +kernel

theorem isWord_id {s : Str} (hne : s ≠ []) (h : ∀ c ∈ s, idChar c = true) : IsWord s := isWord_safe hne (fun c hc => idChar_safe (h c hc))

theorem quote_id {s : Str} (hne : s ≠ []) (h : ∀ c ∈ s, idChar c = true) : quote s = s := quote_safe s hne (fun c hc => idChar_safe (h c hc))

/-- In `${...}` in double quotes. -/
theorem run_brace (t : Str) (h : ∀ c ∈ t, c ∉ ['"', '\'', '\\', '`', '$', '{', '}']) (w : Str) (o : List Tok) :
    run ⟨.dqBrace, w, o⟩ t = some ⟨.dqBrace, w ++ t, o⟩ := by
  induction t generalizing w with
  | nil => simp [run]
  | cons c cs ih =>
    have hc := h c (by simp)
    simp only [List.mem_cons, not_or, List.not_mem_nil, not_false_eq_true, and_true] at hc
    obtain ⟨a1, a2, a3, a4, a5, a6, a7⟩ := hc
    simp only [run, step, a1, a2, a3, a4, a5, a6, a7, or_self, if_false, Option.bind_some]
    rw [ih (fun x hx => h x (by simp [hx]))]
    simp

/-- In `$(...)` in double quotes. -/
theorem run_sub (t : Str) (h : ∀ c ∈ t, c ∉ ['"', '\'', '\\', '`', '$', '(', ')']) (w : Str) (o : List Tok) :
    run ⟨.dqSub, w, o⟩ t = some ⟨.dqSub, w ++ t, o⟩ := by
  induction t generalizing w with
  | nil => simp [run]
  | cons c cs ih =>
    have hc := h c (by simp)
    simp only [List.mem_cons, not_or, List.not_mem_nil, not_false_eq_true, and_true] at hc
    obtain ⟨a1, a2, a3, a4, a5, a6, a7⟩ := hc
    simp only [run, step, a1, a2, a3, a4, a5, a6, a7, or_self, if_false, Option.bind_some]
    rw [ih (fun x hx => h x (by simp [hx]))]
    simp

theorem isWord_brace (t : Str) (h : ∀ c ∈ t, c ∉ ['"', '\'', '\\', '`', '$', '{', '}']) : IsWord (S "\"${" ++ t ++ S "}\"") := by
  apply isWord_of
  have h1 : run ⟨.gap, [], []⟩ (S "\"${") = some ⟨.dqBrace, S "\"${", []⟩ := rfl
  rw [run_append, run_append, h1, Option.bind_some, run_brace t h, Option.bind_some]
  simp [S, run, step]

theorem isWord_sub (t : Str) (h : ∀ c ∈ t, c ∉ ['"', '\'', '\\', '`', '$', '(', ')']) : IsWord (S "\"$(" ++ t ++ S ")\"") := by
  apply isWord_of
  have h1 : run ⟨.gap, [], []⟩ (S "\"$(") = some ⟨.dqSub, S "\"$(", []⟩ := rfl
  rw [run_append, run_append, h1, Option.bind_some, run_sub t h, Option.bind_some]
  simp [S, run, step]

theorem run_arith (t : Str) (h : ')' ∉ t) (w : Str) (o : List Tok) : run ⟨.arith, w, o⟩ t = some ⟨.arith, w ++ t, o⟩ := by
  induction t generalizing w with
  | nil => simp [run]
  | cons c cs ih =>
    simp only [List.mem_cons, not_or] at h
    simp only [run, step, if_neg (Ne.symm h.1), Option.bind_some]
    rw [ih h.2]
    simp

theorem reads_arith (t : Str) (h : ')' ∉ t) : Reads (S "((" ++ t ++ S "))") [.arith t] := by
  apply reads_gap
  intro o
  have h1 : run ⟨.gap, [], o⟩ (S "((") = some ⟨.arith, [], o⟩ := rfl
  rw [run_append, run_append, h1, Option.bind_some, run_arith t h, Option.bind_some]
  simp [S, run, step]

/-! ## Small letters -/

theorem asciiLower_cases (c : Char) : asciiLower c = c ∨ (65 ≤ c.toNat ∧ c.toNat ≤ 90) := by
  unfold asciiLower
  split
  · rename_i h; exact Or.inr h
  · exact Or.inl rfl

theorem upper_cases (c : Char) (h : 65 ≤ c.toNat ∧ c.toNat ≤ 90) : ∃ n, n < 26 ∧ c = Char.ofNat (65 + n) := by
  refine ⟨c.toNat - 65, by omega, ?_⟩
  rw [show 65 + (c.toNat - 65) = c.toNat by omega]
  exact (Char.ofNat_toNat c).symm

theorem lower_all : ∀ n, n < 26 → isSafeChar (asciiLower (Char.ofNat (65 + n))) = true ∧ isSafeChar (Char.ofNat (65 + n)) = true ∧
    asciiLower (Char.ofNat (65 + n)) ∉ ['\'', '"', '\\', '$', '`', '\n', '='] ∧ Char.ofNat (65 + n) ∉ ['\'', '"', '\\', '$', '`', '\n', '='] := by decide

theorem lower_safe (c : Char) : isSafeChar (asciiLower c) = isSafeChar c := by
  rcases asciiLower_cases c with h | h
  · rw [h]
  · obtain ⟨n, hn, rfl⟩ := upper_cases c h
    rw [(lower_all n hn).1, (lower_all n hn).2.1]

theorem lower_same (c x : Char) (hx : x ∈ ['\'', '"', '\\', '$', '`', '\n', '=']) : asciiLower c = x ↔ c = x := by
  rcases asciiLower_cases c with h | h
  · rw [h]
  · obtain ⟨n, hn, rfl⟩ := upper_cases c h
    obtain ⟨-, -, a, b⟩ := lower_all n hn
    exact ⟨fun e => absurd (e ▸ hx) a, fun e => absurd (e ▸ hx) b⟩

theorem lower_replace (x : Char) (y s : Str) (hx : x ∈ ['\'', '"', '\\', '$', '`', '\n', '=']) (hy : lower y = y) :
    lower (replaceChar x y s) = replaceChar x y (lower s) := by
  induction s with
  | nil => rfl
  | cons c cs ih =>
    show lower (replaceChar x y (c :: cs)) = replaceChar x y (asciiLower c :: lower cs)
    unfold replaceChar
    by_cases h : c = x
    · rw [if_pos h, if_pos ((lower_same c x hx).mpr h), ← ih]
      unfold lower at hy ⊢
      rw [List.map_append, hy]
    · rw [if_neg h, if_neg (fun e => h ((lower_same c x hx).mp e)), ← ih]
      rfl

theorem lower_contains (x : Char) (s : Str) (hx : x ∈ ['\'', '"', '\\', '$', '`', '\n', '=']) : (lower s).contains x = s.contains x := by
  rw [Bool.eq_iff_iff]
  simp only [List.contains_iff_mem, lower, List.mem_map]
  constructor
  · rintro ⟨c, hc, e⟩; rw [(lower_same c x hx).mp e] at hc; exact hc
  · intro h; exact ⟨x, h, (lower_same x x hx).mpr rfl⟩

theorem lower_needsQuote (s : Str) : needsQuote (lower s) = needsQuote s := by
  unfold needsQuote lower
  congr 2
  · simp
  · rw [List.all_map]; congr 1; funext c; exact lower_safe c

theorem lower_quote (s : Str) : lower (quote s) = quote (lower s) := by
  unfold quote
  simp only [Bool.not_true, Bool.and_false, Bool.false_eq_true, if_false, lower_needsQuote, lower_contains '\'' s (by decide),
    lower_contains '"' s (by decide)]
  have happ : ∀ a b : Str, lower (a ++ b) = lower a ++ lower b := fun a b => List.map_append
  split
  · rfl
  · split
    · rw [happ, happ]; rfl
    · split
      · rw [happ, happ]
        unfold escapeDouble
        rw [lower_replace _ _ _ (by decide) rfl, lower_replace _ _ _ (by decide) rfl, lower_replace _ _ _ (by decide) rfl]
        rfl
      · rw [happ, happ, lower_replace _ _ _ (by decide) rfl]
        rfl

theorem lower_joinQuoted : ∀ l : List Str, lower (joinQuoted l) = joinQuoted (l.map lower)
  | [] => rfl
  | [a] => by simpa [joinQuoted, joinWith] using lower_quote a
  | a :: b :: r => by
    have ih := lower_joinQuoted (b :: r)
    have happ : ∀ a b : Str, lower (a ++ b) = lower a ++ lower b := fun a b => List.map_append
    rw [List.map_cons] at ih
    rw [List.map_cons, List.map_cons, joinQuoted_cons_cons, joinQuoted_cons_cons, happ, lower_quote]
    show _ ++ (asciiLower ' ' :: lower (joinQuoted (b :: r))) = _
    rw [ih]; rfl

theorem lower_break (s : Str) (h : '\n' ∉ s) : '\n' ∉ lower s := by
  have := lower_contains '\n' s (by decide)
  intro hm
  rw [Bool.eq_iff_iff] at this
  simp only [List.contains_iff_mem] at this
  exact h (this.mp hm)

/-! ## Conditions -/

/-- The texts of a condition have no line breaks, and the values of `positional_contains` are not empty. -/
def condClean : Cond → Prop
  | .optionIs opts vals _ _ => (∀ s ∈ opts, '\n' ∉ s) ∧ ∀ s ∈ vals, '\n' ∉ s
  | .optionMatch opts rx _ _ => (∀ s ∈ opts, '\n' ∉ s) ∧ '\n' ∉ rx
  | .hasOption opts => ∀ s ∈ opts, '\n' ∉ s
  | .positionalCount _ _ => True
  | .positionalContains _ _ vals => vals ≠ [] ∧ ∀ s ∈ vals, '\n' ∉ s

/-- The words of the command of a condition, or the text of the arithmetic test. -/
def condSimple (pre : Str) : Cond → Simple
  | .optionIs opts vals nc any => .call (realName pre (S "query") :: (S "option_is" :: queryArgs opts vals nc any).map (fun w => quote w))
  | .optionMatch opts rx nc any => .call (realName pre (S "option_match") :: (queryArgs opts [rx] nc any).map (fun w => quote w))
  | .hasOption opts => .call (realName pre (S "query") :: (S "has_option" :: opts).map (fun w => quote w))
  | .positionalCount op n => .arith (S " ${#POSITIONALS[@]} " ++ op.text ++ [' '] ++ intStr n ++ [' '])
  | .positionalContains nc n vals =>
    .call (realName pre (S "array_contains") ::
      (if nc then (S "\"${" ++ (S "(L)POSITIONALS[" ++ intStr n ++ [']']) ++ S "}\"") :: (vals.map lower).map (fun w => quote w)
      else (S "\"${" ++ (S "POSITIONALS[" ++ intStr n ++ [']']) ++ S "}\"") :: vals.map (fun w => quote w)))

/-- The tokens of a simple command. -/
def simpleToks : Simple → List Tok
  | .call ws => ws.map .word
  | .arith t => [.arith t]
  | .append n els => .word n :: .attached :: els.map .word ++ [.rpar]

theorem queryArgs_break {opts vals : List Str} {nc any : Bool} (h1 : ∀ s ∈ opts, '\n' ∉ s) (h2 : ∀ s ∈ vals, '\n' ∉ s) :
    ∀ s ∈ queryArgs opts vals nc any, '\n' ∉ s := by
  intro s hs
  unfold queryArgs at hs
  simp only [List.mem_append, List.mem_singleton] at hs
  rcases hs with ((((h | h) | rfl) | h) | rfl) | h
  · split at h
    · simp at h; subst h; decide
    · simp at h
  · split at h
    · simp at h; subst h; decide
    · simp at h
  · decide
  · exact h1 s h
  · decide
  · exact h2 s h

theorem intStr_id (n : Int) : ∀ c ∈ intStr n, c = '-' ∨ c.isDigit = true := by
  intro c hc
  unfold intStr at hc
  split at hc
  · rcases List.mem_cons.mp hc with rfl | hc
    · exact Or.inl rfl
    · exact Or.inr (natStr_isDigit hc)
  · exact Or.inr (natStr_isDigit hc)

theorem intStr_not {n : Int} {x : Char} (hx : x ≠ '-') (hd : x.isDigit = false) : x ∉ intStr n := by
  intro h
  rcases intStr_id n x h with e | e
  · exact hx e
  · rw [hd] at e; cases e

theorem index_brace (p : Str) (hp : ∀ c ∈ p, c ∉ ['"', '\'', '\\', '`', '$', '{', '}']) (n : Int) :
    ∀ c ∈ p ++ intStr n ++ [']'], c ∉ ['"', '\'', '\\', '`', '$', '{', '}'] := by
  intro c hc
  simp only [List.mem_append, List.mem_singleton] at hc
  rcases hc with (h | h) | rfl
  · exact hp c h
  · rcases intStr_id n c h with rfl | e
    · decide
    · intro hm
      simp only [List.mem_cons, List.not_mem_nil, or_false] at hm
      rcases hm with rfl | rfl | rfl | rfl | rfl | rfl | rfl <;> revert e <;> decide
  · decide

theorem positionals_brace : (∀ c ∈ S "POSITIONALS[", c ∉ ['"', '\'', '\\', '`', '$', '{', '}']) ∧
    (∀ c ∈ S "(L)POSITIONALS[", c ∉ ['"', '\'', '\\', '`', '$', '{', '}']) := by decide +kernel

theorem reads_quoted (f : Str) (hf : IsWord f) (ws : List Str) (hne : ws ≠ []) (h : ∀ w ∈ ws, '\n' ∉ w) :
    Reads (f ++ ' ' :: joinQuoted ws) (.word f :: (ws.map (fun w => quote w)).map .word) := by
  have := reads_space (reads_word hf) (reads_joinQuoted ws hne h)
  simpa [List.map_map, Function.comp_def] using this

theorem joinQuoted_name {f : Str} (hf : quote f = f) (a : Str) (r : List Str) : joinQuoted (f :: a :: r) = f ++ ' ' :: joinQuoted (a :: r) := by
  rw [joinQuoted_cons_cons, hf]

theorem queryArgs_ne (opts vals : List Str) (nc any : Bool) : ∃ a r, queryArgs opts vals nc any = a :: r := by
  unfold queryArgs
  cases nc <;> cases any <;> simp

/-- Zsh reads the text of a condition as that command. -/
theorem reads_cond {pre : Str} (hp : ∀ c ∈ pre, idChar c = true) (k : Cond) (h : condClean k) :
    Reads (k.zshText pre) (simpleToks (condSimple pre k)) := by
  have hq := realName_id hp query_id
  have hm := realName_id hp match_id
  have hc := realName_id hp contains_id
  cases k with
  | optionIs opts vals nc any =>
    show Reads (joinQuoted (_ :: S "option_is" :: _)) _
    rw [joinQuoted_name (quote_id (realName_ne _ _) hq)]
    apply reads_quoted _ (isWord_id (realName_ne _ _) hq) _ (by simp)
    intro w hw
    rcases List.mem_cons.mp hw with rfl | hw
    · decide
    · exact queryArgs_break h.1 h.2 w hw
  | optionMatch opts rx nc any =>
    show Reads (joinQuoted (_ :: queryArgs opts [rx] nc any)) _
    obtain ⟨a, r, e⟩ := queryArgs_ne opts [rx] nc any
    rw [e, joinQuoted_name (quote_id (realName_ne _ _) hm)]
    show Reads _ (List.map _ (_ :: (queryArgs opts [rx] nc any).map _))
    rw [e]
    apply reads_quoted _ (isWord_id (realName_ne _ _) hm) _ (by simp)
    intro w hw
    rw [← e] at hw
    refine queryArgs_break h.1 ?_ w hw
    intro s hs
    rw [List.mem_singleton] at hs
    subst hs
    exact h.2
  | hasOption opts =>
    show Reads (joinQuoted (_ :: S "has_option" :: opts)) _
    rw [joinQuoted_name (quote_id (realName_ne _ _) hq)]
    apply reads_quoted _ (isWord_id (realName_ne _ _) hq) _ (by simp)
    intro w hw
    rcases List.mem_cons.mp hw with rfl | hw
    · decide
    · exact h w hw
  | positionalCount op n =>
    have e : Cond.zshText pre (.positionalCount op n) =
        S "((" ++ (S " ${#POSITIONALS[@]} " ++ op.text ++ [' '] ++ intStr n ++ [' ']) ++ S "))" := by
      simp [Cond.zshText, S]
    rw [e]
    refine reads_arith _ ?_
    simp only [List.mem_append, not_or]
    refine ⟨⟨⟨⟨by decide +kernel, by cases op <;> decide⟩, by decide⟩, intStr_not (by decide) (by decide)⟩, by decide⟩
  | positionalContains nc n vals =>
    cases nc with
    | true =>
      have e : Cond.zshText pre (.positionalContains true n vals) =
          realName pre (S "array_contains") ++ ' ' :: ((S "\"${" ++ (S "(L)POSITIONALS[" ++ intStr n ++ [']']) ++ S "}\"") ++
            ' ' :: joinQuoted (vals.map lower)) := by
        rw [← lower_joinQuoted]; simp [Cond.zshText, S]
      rw [e]
      have := reads_space (reads_word (isWord_id (realName_ne pre _) hc)) (reads_quoted _ (isWord_brace _ (index_brace _ positionals_brace.2 n))
        (vals.map lower) (by simpa using h.1) (by
          intro w hw
          obtain ⟨x, hx, rfl⟩ := List.mem_map.mp hw
          exact lower_break x (h.2 x hx)))
      simpa [condSimple, simpleToks] using this
    | false =>
      have e : Cond.zshText pre (.positionalContains false n vals) =
          realName pre (S "array_contains") ++ ' ' :: ((S "\"${" ++ (S "POSITIONALS[" ++ intStr n ++ [']']) ++ S "}\"") ++
            ' ' :: joinQuoted vals) := by
        simp [Cond.zshText, S]
      rw [e]
      have := reads_space (reads_word (isWord_id (realName_ne pre _) hc)) (reads_quoted _ (isWord_brace _ (index_brace _ positionals_brace.1 n)) vals h.1 h.2)
      simpa [condSimple, simpleToks] using this

/-- The tokens of the piece of a condition. -/
def pieceToks (pre : Str) : ShellGrammar.Tok Cond → List Tok
  | .cmd k => simpleToks (condSimple pre k)
  | .and => [.and]
  | .or => [.or]
  | .bang => [.word (S "!")]
  | .lpar => [.word (S "{")]
  | .rpar => [.semi, .word (S "}")]

theorem reads_piece {pre : Str} (hp : ∀ c ∈ pre, idChar c = true) (t : ShellGrammar.Tok Cond) (h : ∀ k, t = .cmd k → condClean k) :
    Reads (zshWhenPiece pre t) (pieceToks pre t) := by
  cases t with
  | cmd k => exact reads_cond hp k (h k rfl)
  | and => exact reads_gap (fun o => rfl)
  | or => exact reads_gap (fun o => rfl)
  | bang => exact reads_word (isWord_of rfl)
  | lpar => exact reads_word (isWord_of rfl)
  | rpar => exact reads_of_run (fun o => rfl) (ts := [.semi])

theorem reads_pieces {pre : Str} (hp : ∀ c ∈ pre, idChar c = true) (ts : List (ShellGrammar.Tok Cond)) (hne : ts ≠ [])
    (h : ∀ k, .cmd k ∈ ts → condClean k) : Reads (joinWith [' '] (ts.map (zshWhenPiece pre))) (ts.flatMap (pieceToks pre)) := by
  have := reads_join (ts.map (fun t => (zshWhenPiece pre t, pieceToks pre t))) (by simpa using hne) (by
    intro e he
    obtain ⟨t, ht, rfl⟩ := List.mem_map.mp he
    exact reads_piece hp t (fun k e => h k (e ▸ ht)))
  simpa [List.map_map, Function.comp_def, List.flatMap_map] using this

/-- The condition with the braces that are added. -/
def braced {α : Type} (ts : List (ShellGrammar.Tok α)) : List (ShellGrammar.Tok α) :=
  if needsBraces ts then .lpar :: (ts ++ [.rpar]) else ts

theorem reads_whenText {pre : Str} (hp : ∀ c ∈ pre, idChar c = true) (ts : List (ShellGrammar.Tok Cond)) (hne : ts ≠ [])
    (h : ∀ k, .cmd k ∈ ts → condClean k) : Reads (zshWhenText pre ts) ((braced ts).flatMap (pieceToks pre)) := by
  have hr := reads_pieces hp ts hne h
  unfold zshWhenText braced
  simp only
  split
  · generalize joinWith [' '] (ts.map (zshWhenPiece pre)) = r at hr
    have e : ((ShellGrammar.Tok.lpar :: (ts ++ [.rpar])).flatMap (pieceToks pre)) = (.word (S "{") :: ts.flatMap (pieceToks pre) ++ [.semi]) ++ [.word (S "}")] := by
      simp [pieceToks]
    rw [e]
    apply reads_of_run
    intro o
    have e2 : S "{ " ++ r ++ S "; }" = S "{ " ++ ((r ++ [';']) ++ S " }") := by simp [S]
    rw [e2, run_append]
    have h1 : run ⟨.gap, [], o⟩ (S "{ ") = some ⟨.gap, [], o ++ [.word (S "{")]⟩ := rfl
    rw [h1, Option.bind_some, run_append, hr _ ';' (by simp)]
    simp [gapStep, S, run, step]
  · exact hr

/-! ## Lists of commands -/

/-- Words that begin a command. -/
def plainWord (w : Str) : Prop := w ≠ S "!" ∧ w ≠ S "{" ∧ w ≠ S "}"

theorem realName_ends (pre n : Str) : (S "__" ++ n) <:+ realName pre n := ⟨pre, by simp [realName]⟩

theorem realName_length (pre n : Str) : 2 ≤ (realName pre n).length := by
  have := (realName_ends pre n).length_le
  simp [S] at this ⊢
  omega

theorem realName_plain (pre n : Str) : plainWord (realName pre n) := by
  have h := realName_length pre n
  refine ⟨?_, ?_, ?_⟩ <;> intro e <;> rw [e] at h <;> revert h <;> decide

/-- A call begins with a word that is not a reserved word, an arithmetic test is one. -/
def startsPlain : Simple → Prop
  | .call ws => ∃ w r, ws = w :: r ∧ plainWord w
  | .arith _ => True
  | .append _ _ => False

theorem condSimple_plain (pre : Str) (k : Cond) : startsPlain (condSimple pre k) := by
  cases k with
  | positionalCount op n => trivial
  | positionalContains nc n vals => exact ⟨_, _, rfl, realName_plain _ _⟩
  | _ => exact ⟨_, _, rfl, realName_plain _ _⟩

theorem scan_words (ws : List Str) : ∀ vs r, scan (.command vs) (ws.map .word ++ r) = scan (.command (vs ++ ws)) r := by
  induction ws with
  | nil => intro vs r; simp
  | cons w ws ih =>
    intro vs r
    simp only [List.map_cons, List.cons_append, scan]
    rw [ih, List.append_assoc]; rfl

theorem scan_elements (ws : List Str) (n : Str) : ∀ vs r, scan (.array n vs) (ws.map .word ++ r) = scan (.array n (vs ++ ws)) r := by
  induction ws with
  | nil => intro vs r; simp
  | cons w ws ih =>
    intro vs r
    simp only [List.map_cons, List.cons_append, scan]
    rw [ih, List.append_assoc]; rfl

open FishReads (alternates mapTok)

/-- The tokens of a condition, followed by `&&`, give the condition. -/
theorem scan_condition (pre : Str) (r : List Tok) (ts : List (ShellGrammar.Tok Cond)) :
    (alternates true ts = true → scan .start (ts.flatMap (pieceToks pre) ++ .and :: r) =
      (scan .start r).map (fun x => (ts.map (mapTok (condSimple pre)) ++ .and :: x.1, x.2))) ∧
    (alternates false ts = true → (scan .closed (ts.flatMap (pieceToks pre) ++ .and :: r) =
      (scan .start r).map (fun x => (ts.map (mapTok (condSimple pre)) ++ .and :: x.1, x.2))) ∧
      ∀ ws, scan (.command ws) (ts.flatMap (pieceToks pre) ++ .and :: r) =
        (scan .start r).map (fun x => (.cmd (.call ws) :: (ts.map (mapTok (condSimple pre)) ++ .and :: x.1), x.2))) := by
  induction ts with
  | nil =>
    refine ⟨by simp [alternates], fun _ => ⟨?_, fun ws => ?_⟩⟩
    · simp only [List.flatMap_nil, List.nil_append, scan, List.map_nil]
    · simp only [List.flatMap_nil, List.nil_append, scan, List.map_nil]
  | cons t ts ih =>
    obtain ⟨ih1, ih2⟩ := ih
    constructor
    · intro ha
      rw [List.flatMap_cons, List.append_assoc, List.map_cons]
      cases t with
      | cmd k =>
        simp only [alternates] at ha
        obtain ⟨i1, i2⟩ := ih2 ha
        have hs := condSimple_plain pre k
        simp only [pieceToks, mapTok]
        cases hk : condSimple pre k with
        | call ws =>
          rw [hk] at hs
          obtain ⟨w, q, rfl, p1, p2, p3⟩ := hs
          simp only [simpleToks, List.map_cons, List.cons_append, scan]
          rw [if_neg (show ¬ w = "!".toList from p1), if_neg (show ¬ w = "{".toList from p2), if_neg (show ¬ w = "}".toList from p3), scan_words, i2]
          rfl
        | arith t =>
          simp only [simpleToks, List.cons_append, List.nil_append, scan]
          rw [i1]
          cases scan .start r <;> rfl
        | append n els => rw [hk] at hs; exact hs.elim
      | bang =>
        simp only [alternates] at ha
        simp only [pieceToks, List.cons_append, List.nil_append, scan, mapTok]
        rw [if_pos (show S "!" = "!".toList from rfl), ih1 ha]
        cases scan .start r <;> rfl
      | lpar =>
        simp only [alternates] at ha
        simp only [pieceToks, List.cons_append, List.nil_append, scan, mapTok]
        rw [if_neg (show ¬ S "{" = "!".toList by decide), if_pos (show S "{" = "{".toList from rfl), ih1 ha]
        cases scan .start r <;> rfl
      | _ => simp [alternates] at ha
    · intro ha
      rw [List.flatMap_cons, List.append_assoc, List.map_cons]
      cases t with
      | and =>
        simp only [alternates] at ha
        simp only [pieceToks, List.cons_append, List.nil_append, scan, mapTok]
        rw [ih1 ha]
        cases scan .start r <;> simp
      | or =>
        simp only [alternates] at ha
        simp only [pieceToks, List.cons_append, List.nil_append, scan, mapTok]
        rw [ih1 ha]
        cases scan .start r <;> simp
      | rpar =>
        simp only [alternates] at ha
        simp only [pieceToks, List.cons_append, List.nil_append, scan, mapTok]
        rw [if_pos (show S "}" = "}".toList from rfl), (ih2 ha).1]
        cases scan .start r <;> simp
      | _ => simp [alternates] at ha

theorem denotes_map {α β : Type} (f : α → β) {l : ShellGrammar.Level} {ts : List (ShellGrammar.Tok α)} {e : Expr α}
    (h : ShellGrammar.DenotesAt l ts e) : ShellGrammar.DenotesAt l (ts.map (mapTok f)) (FishReads.mapExpr f e) := by
  induction h with
  | pipe _ ih => exact .pipe ih
  | and _ _ ih1 ih2 => rw [List.map_append, List.map_cons]; exact .and ih1 ih2
  | or _ _ ih1 ih2 => rw [List.map_append, List.map_cons]; exact .or ih1 ih2
  | cmd a => exact .cmd _
  | not _ ih => exact .not ih
  | group _ ih => rw [List.map_cons, List.map_append]; exact .group ih

theorem denotes_braced {α : Type} {ts : List (ShellGrammar.Tok α)} {e : Expr α} (h : ShellGrammar.Denotes ts e) :
    ShellGrammar.Denotes (braced ts) e := by
  unfold braced
  split
  · exact .pipe (.group h)
  · exact h

theorem denotes_alternates {α : Type} {ts : List (ShellGrammar.Tok α)} {e : Expr α} (h : ShellGrammar.Denotes ts e) : alternates true ts = true :=
  FishReads.alternates_of_parse ts [] (.inl ⟨none, 0⟩) e (ShellGrammar.parse_complete h)

theorem denotes_ne {α : Type} {ts : List (ShellGrammar.Tok α)} {e : Expr α} (h : ShellGrammar.Denotes ts e) : ts ≠ [] := by
  rintro rfl
  have := denotes_alternates h
  simp [alternates] at this

theorem braced_mem {α : Type} {ts : List (ShellGrammar.Tok α)} {k : α} : .cmd k ∈ braced ts ↔ .cmd k ∈ ts := by
  unfold braced
  split <;> simp

/-! ## Statements -/

/-- A list of commands that ends with an array. -/
theorem stmt_list {ts : List Tok} (h1 : ts.getLast? = some .rpar) (h2 : ts.head? ≠ some (.word (S "local")))
    (h3 : ts.head? ≠ some (.word (S "case"))) : stmt ts = list ts := by
  unfold stmt
  rw [if_neg (by rw [h1]; simp)]
  split
  · simp at h1
  · simp at h1
  · rename_i w r _ _
    rw [if_neg (fun e => h2 (by subst e; rfl)), if_neg (fun e => h3 (by subst e; rfl))]
  · rfl

theorem pieceToks_head (pre : Str) (t : ShellGrammar.Tok Cond) (w : Str) (hw : w = S "local" ∨ w = S "case") :
    (pieceToks pre t).head? ≠ some (.word w) ∧ pieceToks pre t ≠ [] := by
  have hl : ∀ n, n = S "query" ∨ n = S "option_match" ∨ n = S "array_contains" → realName pre n ≠ w := by
    intro n hn e
    have h := realName_ends pre n
    rw [e] at h
    rcases hn with rfl | rfl | rfl <;> rcases hw with rfl | rfl <;> revert h <;> decide +kernel
  cases t with
  | cmd k =>
    cases k with
    | optionIs o v n a => exact ⟨by simpa [pieceToks, condSimple, simpleToks] using hl _ (by simp), by simp [pieceToks, condSimple, simpleToks]⟩
    | optionMatch o v n a => exact ⟨by simpa [pieceToks, condSimple, simpleToks] using hl _ (by simp), by simp [pieceToks, condSimple, simpleToks]⟩
    | hasOption o => exact ⟨by simpa [pieceToks, condSimple, simpleToks] using hl _ (by simp), by simp [pieceToks, condSimple, simpleToks]⟩
    | positionalCount op n => exact ⟨by simp [pieceToks, condSimple, simpleToks], by simp [pieceToks, condSimple, simpleToks]⟩
    | positionalContains nc n v => exact ⟨by simpa [pieceToks, condSimple, simpleToks] using hl _ (by simp), by simp [pieceToks, condSimple, simpleToks]⟩
  | bang => exact ⟨by rcases hw with rfl | rfl <;> simp [pieceToks, S], by simp [pieceToks]⟩
  | lpar => exact ⟨by rcases hw with rfl | rfl <;> simp [pieceToks, S], by simp [pieceToks]⟩
  | _ => exact ⟨by simp [pieceToks], by simp [pieceToks]⟩

theorem simpleToks_flat (pre : Str) (k : Cond) : ∀ t ∈ simpleToks (condSimple pre k), flat t = true := by
  have h : ∀ ws : List Str, ∀ t ∈ ws.map Tok.word, flat t = true := by
    intro ws t ht
    obtain ⟨w, -, rfl⟩ := List.mem_map.mp ht
    rfl
  cases k with
  | positionalCount op n => intro t ht; simp [condSimple, simpleToks] at ht; subst ht; rfl
  | _ => exact h _

theorem pieces_flat (pre : Str) (ts : List (ShellGrammar.Tok Cond)) : ∀ t ∈ ts.flatMap (pieceToks pre), flat t = true := by
  intro t ht
  obtain ⟨p, -, hm⟩ := List.mem_flatMap.mp ht
  cases p with
  | cmd k => exact simpleToks_flat pre k t hm
  | _ => simp [pieceToks] at hm; rcases hm with rfl | rfl <;> rfl

/-- The statement of a spec with a condition. -/
def whenStmt (pre : Str) (ts : List (ShellGrammar.Tok Cond)) (spec : Str) : Stmt :=
  .list ((braced ts).map (mapTok (condSimple pre)) ++ [.and, .cmd (.append (S "args+=") [spec])])

theorem line_and {t : Str} {ts : List Tok} (h : Reads t ts) : LineReads (t ++ S " &&\\") (ts ++ [.and]) := by
  intro o
  have e : t ++ S " &&\\" ++ ['\n'] = (t ++ [' ']) ++ S "&&\\\n" := by simp [S]
  rw [e, run_append, h o ' ' (by simp), gapStep_space, Option.bind_some, ← List.append_assoc]
  exact run_out (m := .gap) (w := []) (ts := [.and]) rfl (o ++ ts)

theorem line_append {spec : Str} (h : IsWord spec) :
    LineReads (S "  args+=(" ++ spec ++ S ")") [.word (S "args+="), .attached, .word spec, .rpar, .nl] := by
  intro o
  have e : S "  args+=(" ++ spec ++ S ")" ++ ['\n'] = S "  args+=(" ++ ((spec ++ [')']) ++ ['\n']) := by simp [S]
  have h1 : run ⟨.gap, [], o⟩ (S "  args+=(") = some ⟨.gap, [], o ++ [.word (S "args+="), .attached]⟩ := by
    exact run_out (m := .gap) (w := []) rfl o
  rw [e, run_append, h1, Option.bind_some, run_append, reads_word h _ ')' (by simp)]
  simp [gapStep, run, step]

/-- The tokens of `args+=(SPEC)`. -/
def appendToks (spec : Str) : List Tok := [.word (S "args+="), .attached, .word spec, .rpar]

theorem means_when {pre : Str} (hp : ∀ c ∈ pre, idChar c = true) {ts : List (ShellGrammar.Tok Cond)} {e : Expr Cond}
    (hd : ShellGrammar.Denotes ts e) (h : ∀ k, .cmd k ∈ ts → condClean k) {spec : Str} (hs : IsWord spec) :
    Means (zshWhenLines pre ts spec) [whenStmt pre ts spec] := by
  have hb := denotes_braced hd
  have h1 := line_and (reads_whenText hp ts (denotes_ne hd) h)
  have h2 := line_append hs
  refine ⟨_, .cons h1 (allRead_one h2), ?_⟩
  have e : ((braced ts).flatMap (pieceToks pre) ++ [Tok.and]) ++ [Tok.word (S "args+="), .attached, .word spec, .rpar, .nl] =
      ((braced ts).flatMap (pieceToks pre) ++ Tok.and :: appendToks spec) ++ [.nl] := by simp [appendToks]
  rw [e]
  refine gives_one (l := (braced ts).flatMap (pieceToks pre) ++ Tok.and :: appendToks spec) ?_ (by simp) ?_
  · rw [pass_append _ _ 0 0 _ (pass_flat 0 _ (pieces_flat pre _))]
    rfl
  · have hhead : ∀ w, w = S "local" ∨ w = S "case" →
        ((braced ts).flatMap (pieceToks pre) ++ Tok.and :: appendToks spec).head? ≠ some (.word w) := by
      intro w hw
      have hne := denotes_ne hb
      cases hbt : braced ts with
      | nil => exact absurd hbt hne
      | cons t r =>
        obtain ⟨k1, k2⟩ := pieceToks_head pre t w hw
        rw [List.flatMap_cons]
        cases hpt : pieceToks pre t with
        | nil => exact absurd hpt k2
        | cons x y => rw [hpt] at k1; simpa using k1
    rw [stmt_list (by rw [List.getLast?_append]; rfl) (hhead _ (Or.inl rfl)) (hhead _ (Or.inr rfl))]
    unfold list
    rw [(scan_condition pre _ (braced ts)).1 (denotes_alternates hb)]
    have hsc : scan .start (appendToks spec) = some ([.cmd (.append (S "args+=") [spec])], .closed) := rfl
    rw [hsc]
    simp [scanEnd, whenStmt]

end ZshLex
end CC
