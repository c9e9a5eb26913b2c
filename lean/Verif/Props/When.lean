import Verif.Lemmas.WhenPrim
import Verif.Lemmas.Lexer
/-!
# C06-C08: parsing `when` and the code generated for it
-/

namespace CC

open ShellGrammar WhenSpec

/-! ## C06 reading quoted commands back -/

/-- How one writes a `when` token: operators as they are, words quoted. -/
def renderTok : Tok Str → Str
  | .bang => ['!'] | .lpar => ['('] | .rpar => [')'] | .and => ['&', '&'] | .or => ['|', '|']
  | .cmd w => quote w

/-- Write a token sequence with blanks between the tokens. -/
def renderToks (ts : List (Tok Str)) : Str := joinWith [' '] (ts.map renderTok)

/-- The words and operators of a condition. -/
def flattenTok : Tok (List Str) → List (Tok Str)
  | .bang => [.bang] | .lpar => [.lpar] | .rpar => [.rpar] | .and => [.and] | .or => [.or]
  | .cmd ws => ws.map .cmd

theorem lex_of_token {s r : Str} {t : Tok Str} (h : parseToken s = .ok (some (t, r))) :
    lex s = (match lex r with | .ok ts => .ok (t :: ts) | .error e => .error e) := by
  rw [lex]
  split
  · rename_i h'; rw [h] at h'; cases h'
  · rename_i h'; rw [h] at h'; cases h'
  · rename_i h'; rw [h] at h'; cases h'; rfl

theorem lex_nil : lex [] = .ok [] := by
  rw [lex]
  split
  · rename_i h; simp [parseToken] at h
  · rfl
  · rename_i h; simp [parseToken] at h

theorem lex_congr {s s' : Str} (h : parseToken s = parseToken s') : lex s = lex s' := by
  cases hp : parseToken s' with
  | error e =>
    rw [hp] at h
    rw [lex, lex]
    split <;> split <;> simp_all
  | ok o =>
    rw [hp] at h
    cases o with
    | none =>
      rw [lex, lex]
      split <;> split <;> simp_all
    | some p => obtain ⟨t, r⟩ := p; rw [lex_of_token h, lex_of_token hp]

theorem lex_space (s : Str) : lex (' ' :: s) = lex s := by
  apply lex_congr
  have : pyIsSpace ' ' = true := rfl
  simp [parseToken, this]

theorem parseToken_render (t : Tok Str) (rest : Str) (hr : rest = [] ∨ ∃ r, rest = ' ' :: r) :
    parseToken (renderTok t ++ rest) = .ok (some (t, rest)) := by
  cases t with
  | cmd w =>
    simp only [renderTok]
    rw [parseToken_quote]
    rcases hr with rfl | ⟨r, rfl⟩
    · rw [parseLiteral_nil]
    · rw [parseLiteral_stop w ' ' r (Or.inl rfl) (by decide) (by decide)]
  | bang | lpar | rpar => simp [renderTok, parseToken]
  | and =>
    have : pyIsSpace '&' = false := rfl
    simp [renderTok, parseToken, this]
  | or =>
    have : pyIsSpace '|' = false := rfl
    simp [renderTok, parseToken, this]

/-- **C06**: the lexer reads every written token sequence back; whatever characters a quoted
word contains, none of them is taken for an operator, a blank or a quote. -/
theorem C06_lex_render (ts : List (Tok Str)) : lex (renderToks ts) = .ok ts := by
  unfold renderToks
  match ts with
  | [] => exact lex_nil
  | [t] =>
    have := parseToken_render t [] (Or.inl rfl)
    simp only [List.append_nil] at this
    simp [joinWith, lex_of_token this, lex_nil]
  | t :: u :: us =>
    have h := parseToken_render t (' ' :: renderToks (u :: us)) (Or.inr ⟨_, rfl⟩)
    have ih := C06_lex_render (u :: us)
    simp only [List.map_cons, joinWith] at *
    simp only [List.append_assoc, List.cons_append, List.nil_append]
    simp only [renderToks, List.map_cons] at h ih
    rw [lex_of_token h, lex_space, ih]

theorem makeCommandsGo_words (cur ws : List Str) (ts : List (Tok Str)) :
    makeCommandsGo cur (ws.map .cmd ++ ts) = makeCommandsGo (cur ++ ws) ts := by
  induction ws generalizing cur with
  | nil => simp
  | cons w ws ih => simp [makeCommandsGo, ih]

theorem makeCommandsGo_op (cur : List Str) (t : Tok (List Str)) (ts : List (Tok Str))
    (ht : ∀ a, t ≠ .cmd a) :
    makeCommandsGo cur (flattenTok t ++ ts) =
      (if cur.isEmpty then [] else [.cmd cur]) ++ t :: makeCommandsGo [] ts := by
  cases t with
  | cmd a => exact absurd rfl (ht a)
  | _ => simp [flattenTok, makeCommandsGo]

theorem makeCommands_flatten (ts : List (Tok (List Str))) (h : noJuxtaposition ts = true)
    (hne : ∀ ws, .cmd ws ∈ ts → ws ≠ []) : makeCommands (ts.flatMap flattenTok) = ts := by
  have key : ∀ (ts : List (Tok (List Str))), noJuxtaposition ts = true →
      (∀ ws, .cmd ws ∈ ts → ws ≠ []) →
      makeCommandsGo [] (ts.flatMap flattenTok) = ts ∧
      ∀ cur : List Str, cur ≠ [] → noJuxtaposition (.cmd cur :: ts) = true →
        makeCommandsGo cur (ts.flatMap flattenTok) = .cmd cur :: ts := by
    intro ts
    induction ts with
    | nil =>
      intro _ _
      refine ⟨rfl, ?_⟩
      intro cur hc _
      cases cur <;> simp_all [makeCommandsGo]
    | cons t ts ih =>
      intro hj hne
      have ih' := ih (noJuxt_tail hj) (fun ws hw => hne ws (by simp [hw]))
      simp only [List.flatMap_cons]
      by_cases hc : ∃ ws, t = .cmd ws
      · obtain ⟨ws, rfl⟩ := hc
        have hw := hne ws (by simp)
        constructor
        · simp only [flattenTok, makeCommandsGo_words, List.nil_append]
          exact ih'.2 ws hw hj
        · intro cur _ hj2
          have := noJuxt_head hj2
          simp [expectsOperand] at this
      · have ht : ∀ a, t ≠ .cmd a := fun a h => hc ⟨a, h⟩
        constructor
        · rw [makeCommandsGo_op _ _ _ ht, ih'.1]; simp
        · intro cur hcur _
          rw [makeCommandsGo_op _ _ _ ht, ih'.1]
          cases cur <;> simp_all
  exact (key ts h hne).1

/-- The written form of a condition. -/
def renderCommands (ts : List (Tok (List Str))) : Str := renderToks (ts.flatMap flattenTok)

/-- **C06, C07**: every boolean expression over non-empty commands, written with quoted words,
is accepted and read back exactly. -/
theorem C06_parse_render (ts : List (Tok (List Str))) (e : Expr (List Str)) (h : Denotes ts e)
    (hne : ∀ ws, .cmd ws ∈ ts → ws ≠ []) : shellParse (renderCommands ts) = .ok ts := by
  have hc := (check_iff ts).mpr ⟨e, h⟩
  simp only [shellParse, renderCommands, C06_lex_render, makeCommands_flatten ts hc.2.1 hne, hc.1]

/-- **C06**: the quoted words of one command are read back as that command. -/
theorem C06_one_command (args : List Str) (h : args ≠ []) :
    shellParse (joinQuoted args) = .ok [.cmd args] := by
  have := C06_parse_render [.cmd args] (.atom args) (.pipe (.cmd args)) (by simpa using h)
  have e : joinQuoted args = renderCommands [.cmd args] := by
    simp [joinQuoted, renderCommands, renderToks, flattenTok, List.map_map]
    rfl
  rw [e, this]

example : shellParse (joinQuoted [S "a b", S "&& ( it's", [], S "\"$x\\"]) =
    .ok [.cmd [S "a b", S "&& ( it's", [], S "\"$x\\"]] := C06_one_command _ (by simp)

/-! ## C07 syntax check -/

/-- The full property: accepted exactly if the tokens form a boolean expression. -/
def C07_full : Prop :=
  ∀ (s : Str) (ts : List (Tok (List Str))), shellParse s = .ok ts → ∃ e, Denotes ts e

/-- **C07** (partial): the check accepts a token list that does not end in an operator and has
no command directly after a command or `)` exactly if it is a boolean expression. Missing: the
code does not reject the two excluded shapes, see `C07_false`. -/
theorem C07_check_exact_partial {α : Type} (ts : List (Tok α))
    (h1 : noJuxtaposition ts = true) (h2 : endsComplete ts = true) :
    checkSyntax ts = .ok () ↔ ∃ e, Denotes ts e := by
  rw [← check_iff]
  exact ⟨fun h => ⟨h, h1, h2⟩, fun h => h.1⟩

/-- **C07** (this direction in full): every boolean expression is accepted. -/
theorem C07_complete {α : Type} (ts : List (Tok α)) (e : Expr α) (h : Denotes ts e) :
    checkSyntax ts = .ok () := ((check_iff ts).mpr ⟨e, h⟩).1

/-- The meaning of an accepted expression is unique. -/
theorem C07_unambiguous {α : Type} (ts : List (Tok α)) (e f : Expr α) (h : Denotes ts e)
    (h' : Denotes ts f) : e = f := denotes_unique h h'

theorem parse_isSome_of_denotes {α : Type} {ts : List (Tok α)} (h : ∃ e, Denotes ts e) :
    (parse ts).isSome = true := by
  obtain ⟨e, he⟩ := h; simp [parse_complete he]

theorem shellParse_of_lex {s : Str} {ts : List (Tok Str)} (h : lex s = .ok ts)
    (hc : checkSyntax (makeCommands ts) = .ok ()) : shellParse s = .ok (makeCommands ts) := by
  simp [shellParse, h, hc]

/-- **C07 is false**: a trailing operator is accepted (`a &&`). -/
theorem C07_false : ¬ C07_full := by
  intro h
  have hp : shellParse (renderToks [.cmd (S "a"), .and]) = .ok [.cmd [S "a"], .and] :=
    shellParse_of_lex (C06_lex_render _) rfl
  have := parse_isSome_of_denotes (h _ _ hp)
  simp [parse, parseGo] at this

/-- So is a lone negation (`!`). -/
theorem C07_lone_bang_accepted :
    shellParse (S "!") = .ok [.bang] ∧ ¬ ∃ e, Denotes ([.bang] : List (Tok (List Str))) e := by
  constructor
  · exact shellParse_of_lex (C06_lex_render [.bang]) rfl
  · intro h; have := parse_isSome_of_denotes h; simp [parse, parseGo] at this

/-- And a command after a closing parenthesis (`( a ) b`). -/
theorem C07_juxtaposition_accepted :
    shellParse (renderToks [.lpar, .cmd (S "a"), .rpar, .cmd (S "b")]) =
      .ok [.lpar, .cmd [S "a"], .rpar, .cmd [S "b"]] ∧
    ¬ ∃ e, Denotes ([.lpar, .cmd [S "a"], .rpar, .cmd [S "b"]] : List (Tok (List Str))) e := by
  constructor
  · exact shellParse_of_lex (C06_lex_render _) rfl
  · intro h; have := parse_isSome_of_denotes h; simp [parse, parseGo, Frame.close] at this

/-- No command is empty after `make_commands`. -/
theorem makeCommands_shape (cur : List Str) (ts : List (Tok Str)) :
    ∀ ws, .cmd ws ∈ makeCommandsGo cur ts → ws ≠ [] := by
  induction ts generalizing cur with
  | nil =>
    intro ws h
    simp only [makeCommandsGo] at h
    split at h
    · simp at h
    · simp at h; subst h; rintro rfl; simp_all
  | cons t ts ih =>
    intro ws h
    have aux : ∀ ws, Tok.cmd ws ∈ (if cur.isEmpty = true then ([] : List (Tok (List Str)))
        else [.cmd cur]) → ws ≠ [] := by
      intro ws h
      split at h
      · simp at h
      · simp at h; subst h; rintro rfl; simp_all
    cases t with
    | cmd a => exact ih _ ws h
    | _ =>
      simp only [makeCommandsGo, List.mem_append, List.mem_cons, reduceCtorEq, false_or] at h
      rcases h with h | h
      · exact aux ws h
      · exact ih _ ws h

/-- **C07** (end to end, partial): for an accepted `when` text, every primitive command has at
least one word; so `parse_when` never meets an empty command. -/
theorem C07_commands_nonempty_partial (s : Str) (ts : List (Tok (List Str)))
    (h : shellParse s = .ok ts) : ∀ ws, .cmd ws ∈ ts → ws ≠ [] := by
  simp only [shellParse] at h
  split at h
  · cases h
  · split at h
    · cases h
    · simp at h; subst h; exact makeCommands_shape [] _

example : ∃ e, Denotes ([.lpar, .cmd 1, .or, .bang, .cmd 2, .rpar, .and, .cmd 3] : List (Tok Nat)) e :=
  (check_iff _).mp ⟨rfl, rfl, rfl⟩

/-! ## C08 Bash and Zsh code -/

open Classical in
/-- **C08, Bash** (partial: the meaning is the one of `holdsEach`, positional numbers from 1, no
empty value for a positional). For a `when` expression `ts` with meaning `e`, the emitted code
succeeds exactly if `e` is true of the command line, alone and between other conditions. -/
theorem C08_bash_partial (varOf : Str → Str) (resolve : List Str → Except Err (List Str))
    (hres : Resolves varOf resolve) (rx : Bool → Str → Str → Bool) (l : Line) (σ : BashState)
    (hv : BashView varOf l σ) (ts : List (Tok Cond)) (e : Expr Cond) (hd : Denotes ts e)
    (hs : ∀ c, .cmd c ∈ ts → condSafe c) (code : List (Tok BashPrim))
    (hc : bashGenerate resolve ts = .ok code) :
    let truth := e.eval (fun c => decide (holdsEach (fun a b => varOf a == varOf b) rx l c))
    run (BashPrim.succeeds rx σ) code = some truth ∧
    ∀ (pre post : List (Tok BashPrim)) (p q : Expr BashPrim), Denotes pre p →
      DenotesAt .command post q →
      run (BashPrim.succeeds rx σ) (pre ++ .and :: code ++ .and :: post) =
        some (p.eval (BashPrim.succeeds rx σ) && truth && q.eval (BashPrim.succeeds rx σ)) := by
  intro truth
  have h := braces_context hd (BashPrim.succeeds rx σ)
    (fun c => decide (holdsEach (fun a b => varOf a == varOf b) rx l c)) hc
    (fun c a hm hg => bash_prim hres rx hv c (hs c hm) a hg)
  obtain ⟨⟨e', d, hv'⟩, hctx⟩ := h
  refine ⟨by simp [run, parse_complete d, hv', truth], ?_⟩
  intro pre post p q hp hq
  obtain ⟨e2, d2, hv2⟩ := hctx pre p hp
  have d3 := DenotesAt.and d2 hq
  simp only [run, parse_complete d3, Option.map_some, Expr.eval, hv2, truth]

open Classical in
/-- **C08, Zsh** (partial as for Bash; the meaning is the one of `holdsTogether`). -/
theorem C08_zsh_partial (rx : Bool → Str → Str → Bool) (l : Line)
    (ts : List (Tok Cond)) (e : Expr Cond) (hd : Denotes ts e)
    (hs : ∀ c, .cmd c ∈ ts → condSafe c) (code : List (Tok QueryPrim))
    (hc : zshGenerate ts = .ok code) :
    let σ : QueryState := ⟨l.given, l.positionals⟩
    let truth := e.eval (fun c => decide (holdsTogether rx l c))
    run (QueryPrim.succeedsZsh rx σ) code = some truth ∧
    ∀ (pre post : List (Tok QueryPrim)) (p q : Expr QueryPrim), Denotes pre p →
      DenotesAt .command post q →
      run (QueryPrim.succeedsZsh rx σ) (pre ++ .and :: code ++ .and :: post) =
        some (p.eval (QueryPrim.succeedsZsh rx σ) && truth &&
          q.eval (QueryPrim.succeedsZsh rx σ)) := by
  intro σ truth
  have h := braces_context hd (QueryPrim.succeedsZsh rx σ)
    (fun c => decide (holdsTogether rx l c)) hc
    (fun c a hm hg => zsh_prim rx (l := l) (σ := σ) rfl rfl c (hs c hm) a hg)
  obtain ⟨⟨e', d, hv'⟩, hctx⟩ := h
  refine ⟨by simp [run, parse_complete d, hv', truth], ?_⟩
  intro pre post p q hp hq
  obtain ⟨e2, d2, hv2⟩ := hctx pre p hp
  have d3 := DenotesAt.and d2 hq
  simp only [run, parse_complete d3, Option.map_some, Expr.eval, hv2, truth]

theorem genTokens_total {α β : Type} (g : α → Except Err (List (Tok β))) (ts : List (Tok α))
    (h : ∀ c, .cmd c ∈ ts → ∃ a, g c = .ok a) : ∃ r, genTokens g ts = .ok r := by
  induction ts with
  | nil => exact ⟨[], rfl⟩
  | cons t ts ih =>
    obtain ⟨r, hr⟩ := ih (fun c hc => h c (by simp [hc]))
    cases t with
    | cmd c =>
      obtain ⟨a, ha⟩ := h c (by simp)
      exact ⟨a ++ r, by simp [genTokens, ha, hr, bind, Except.bind]⟩
    | _ => simp [genTokens, hr, bind, Except.bind]

theorem queryCond_total (b : Bool) (c : Cond) : ∃ a, queryCond b c = .ok a := by
  cases c <;> exact ⟨_, rfl⟩

/-- Code generation for Zsh never fails. -/
theorem C08_zsh_total (ts : List (Tok Cond)) : ∃ code, zshGenerate ts = .ok code := by
  obtain ⟨r, hr⟩ := genTokens_total (queryCond true) ts (fun c _ => queryCond_total true c)
  simp only [zshGenerate, genWithBraces, hr, bind, Except.bind]
  split <;> exact ⟨_, rfl⟩

/-- Code generation for Bash fails only if an option string cannot be resolved. -/
theorem C08_bash_total (resolve : List Str → Except Err (List Str)) (ts : List (Tok Cond))
    (h : ∀ opts, ∃ vars, resolve opts = .ok vars) : ∃ code, bashGenerate resolve ts = .ok code := by
  have : ∀ c, ∃ a, bashCond resolve c = .ok a := by
    intro c
    cases c with
    | optionIs opts vals nc any =>
      obtain ⟨vars, hv⟩ := h opts
      simp only [bashCond, hv, bind, Except.bind]
      split <;> exact ⟨_, rfl⟩
    | optionMatch opts re nc any =>
      obtain ⟨vars, hv⟩ := h opts
      simp [bashCond, hv, bind, Except.bind]
    | hasOption opts =>
      obtain ⟨vars, hv⟩ := h opts
      simp [bashCond, hv, bind, Except.bind]
    | positionalCount op n => exact ⟨_, rfl⟩
    | positionalContains nc n vals => exact ⟨_, rfl⟩
  obtain ⟨r, hr⟩ := genTokens_total (bashCond resolve) ts (fun c _ => this c)
  simp only [bashGenerate, genWithBraces, hr, bind, Except.bind]
  split <;> exact ⟨_, rfl⟩

/-- The restriction on positional numbers is needed: `positional_contains 0 x` is accepted by
the parser and true in Bash whenever the *last* positional is `x`. -/
theorem C08_positional_zero_false :
    parsePositionalContains [S "0", S "x"] = .ok (.positionalContains false 0 [S "x"]) ∧
    bashGenerate (fun o => .ok o) [.cmd (.positionalContains false 0 [S "x"])] =
      .ok [.cmd (.posContains false (-1) [S "x"])] ∧
    ∀ rx vars, BashPrim.succeeds rx ⟨vars, [S "a", S "x"]⟩ (.posContains false (-1) [S "x"]) = true := by
  exact ⟨rfl, rfl, fun _ _ => rfl⟩

/-- The restriction on empty values is needed: in Bash a missing positional counts as `''`. -/
theorem C08_empty_value_false : ∀ rx vars,
    BashPrim.succeeds rx ⟨vars, []⟩ (.posContains false 0 [[]]) = true := by
  intro rx vars; rfl

open Classical in
/-- The two shells disagree on the same condition and the same command line: with
`option_is --a --b -- x` and `--a x --b y`, Bash says yes and Zsh says no. -/
theorem C08_shells_disagree :
    let l : Line := ⟨[(S "--a", S "x"), (S "--b", S "y")], []⟩
    let c : Cond := .optionIs [S "--a", S "--b"] [S "x"] false false
    (∀ rx, holdsEach (fun a b => a == b) rx l c) ∧ (∀ rx, ¬ holdsTogether rx l c) := by
  intro l c
  constructor
  · intro rx
    refine ⟨S "--a", by simp, S "x", by simp, S "x", by decide, ?_⟩
    simp only [Bool.false_eq_true, if_false]
    decide
  · rintro rx ⟨v, hv, w, hs, h⟩
    simp only [Bool.false_eq_true, if_false] at h
    obtain ⟨o, -, h⟩ := h
    have e : (l.given.filter (fun p => [S "--a", S "--b"].contains p.1)).getLast? =
        some (S "--b", S "y") := by decide
    rw [e] at h
    simp at h hv
    obtain ⟨-, rfl⟩ := h
    subst hv
    revert hs; decide

/-- Sample: hypotheses of `C08_bash_partial` are met by `( has_option -f || option_is -l -- a b )
&& positional_count '>' 1`, with the variables named by the options themselves. -/
example : ∃ (ts : List (Tok Cond)) (e : Expr Cond) (code : List (Tok BashPrim)),
    Denotes ts e ∧ (∀ c, .cmd c ∈ ts → condSafe c) ∧ bashGenerate (fun o => .ok o) ts = .ok code ∧
    needsBraces ts = true ∧ Resolves id (fun o => .ok o) := by
  refine ⟨[.lpar, .cmd (.hasOption [S "-f"]), .or, .cmd (.optionIs [S "-l"] [S "a", S "b"] false true),
    .rpar, .and, .cmd (.positionalCount .gt 1)], _, _,
    .and (.pipe (.group (.or (.pipe (.cmd _)) (.cmd _)))) (.cmd _), ?_, rfl, rfl, ?_⟩
  · intro c hc
    simp at hc
    rcases hc with rfl | rfl | rfl <;> simp [condSafe, S]
  · intro opts vars h v
    simp at h; subst h; simp

end CC
