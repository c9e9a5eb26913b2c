import Verif.Lemmas.ZshFileLines
import Verif.Lemmas.Decimal
import Verif.Lemmas.WhenGen
import Verif.Lemmas.ZshScript
import Verif.Props.Quoting
/-!
# Lemmas: what Zsh does when it runs the functions (C93)
-/

namespace CC
namespace ZshLex
open ZshText
open FishReads (mapTok)
open ShellGrammar (Expr DenotesAt Denotes)

/-! ## Words -/

/-- A text that Zsh does not replace by the path of a command. -/
def noEquals (w : Str) : Prop := w.head? = some '=' → w = ['=']

theorem quote_head (w : Str) (h : (quote w).head? = some '=') : quote w = w := by
  unfold quote at h ⊢
  simp only [Bool.not_true, Bool.and_false, Bool.false_eq_true, if_false] at h ⊢
  split at h
  · rename_i h1; rw [if_pos h1]
  · split at h
    · simp at h
    · split at h
      · simp at h
      · simp at h

theorem literal_quote {w : Str} (h : noEquals w) : literal (quote w) = some w := by
  unfold literal
  rw [C01_quote_roundtrip w]
  by_cases hh : (quote w).head? = some '='
  · have e := quote_head w hh
    rw [e] at hh ⊢
    rw [if_neg (by rw [h hh]; simp)]
  · rw [if_neg (fun x => hh x.1)]

theorem between_none {pre post t : Str} (h : ¬ pre <+: t) : between pre post t = none := by
  unfold between
  rw [if_neg]
  rintro ⟨h1, -⟩
  exact h (List.isPrefixOf_iff_prefix.mp h1)

theorem words_dollar (r : Str) : Posix.words ('"' :: '$' :: r) = none := by
  simp [Posix.words, Posix.read, Posix.blank]

theorem expand_quote {σ : Type} (env : Env σ) (v : Vars σ) {w : Str} (h : noEquals w) : expand env v (quote w) = some [w] := by
  have hno : ∀ r, quote w ≠ '"' :: '$' :: r := by
    intro r e
    have := C01_quote_roundtrip w
    rw [e, words_dollar] at this
    cases this
  have hpre : ∀ p : Str, ¬ ('"' :: '$' :: p) <+: quote w := by
    rintro p ⟨r, e⟩
    exact hno (p ++ r) (by rw [← e]; simp)
  unfold expand
  rw [if_neg (show ¬ quote w = "\"${words[@]}\"".toList from hno _), between_none (show ¬ "\"${POSITIONALS[".toList <+: quote w from hpre _),
    between_none (show ¬ "\"${(L)POSITIONALS[".toList <+: quote w from hpre _), between_none (show ¬ "\"$".toList <+: quote w from hpre _), literal_quote h]
  rfl

theorem allSome_literals {ws : List Str} (h : ∀ w ∈ ws, noEquals w) : allSome ((ws.map (fun w => quote w)).map literal) = some ws := by
  induction ws with
  | nil => rfl
  | cons w r ih =>
    rw [List.map_cons, List.map_cons, allSome, literal_quote (h w (by simp)), ih (fun x hx => h x (by simp [hx]))]
    rfl

theorem expandAll_cons {σ : Type} (env : Env σ) (v : Vars σ) {t : Str} {ts : List Str} {xs ys : List Str} (h : expand env v t = some xs)
    (h2 : expandAll env v ts = some ys) : expandAll env v (t :: ts) = some (xs ++ ys) := by
  unfold expandAll at h2 ⊢
  rw [List.map_cons, allSome, h]
  cases hb : allSome (ts.map (expand env v)) with
  | none => rw [hb] at h2; cases h2
  | some r =>
    rw [hb] at h2
    simp only [Option.map_some, Option.some.injEq] at h2
    subst h2
    rfl

theorem expandAll_quotes {σ : Type} (env : Env σ) (v : Vars σ) {ws : List Str} (h : ∀ w ∈ ws, noEquals w) :
    expandAll env v (ws.map (fun w => quote w)) = some ws := by
  induction ws with
  | nil => rfl
  | cons w r ih =>
    rw [List.map_cons, expandAll_cons env v (expand_quote env v (h w (by simp))) (ih (fun x hx => h x (by simp [hx])))]
    rfl

theorem between_some (pre mid post : Str) : between pre post (pre ++ mid ++ post) = some mid := by
  unfold between
  have h1 : (pre ++ mid ++ post).drop pre.length = mid ++ post := by rw [List.append_assoc, List.drop_left]
  rw [if_pos ⟨by rw [List.isPrefixOf_iff_prefix]; exact ⟨mid ++ post, by simp⟩, by rw [h1, List.isSuffixOf_iff_suffix]; exact ⟨mid, rfl⟩⟩, h1]
  simp

theorem element_eq (a : List Str) (n : Int) : element a n = zshIndex a n := by
  unfold element zshIndex
  split
  · rfl
  · rename_i h0
    by_cases hn : 0 < n
    · rw [if_pos hn]
      simp only
      rw [if_neg (show ¬ n < 0 by omega), if_neg (show ¬ n - 1 < 0 by omega)]
      congr 2
      omega
    · have hneg : n < 0 := by omega
      rw [if_neg hn]
      simp only [if_pos hneg]
      by_cases hl : (a.length : Int) + n < 0
      · rw [if_pos hl, List.getElem?_eq_none (by rw [List.length_reverse]; omega)]
        rfl
      · rw [if_neg hl, List.getElem?_reverse (by omega)]
        congr 2
        omega

theorem small_eq (t : Str) : small t = lower t := by
  unfold small lower
  apply List.map_congr_left
  intro c _
  unfold asciiLower
  rfl

theorem expand_positional {σ : Type} (env : Env σ) (v : Vars σ) (n : Int) :
    expand env v (S "\"${" ++ (S "POSITIONALS[" ++ intStr n ++ [']']) ++ S "}\"") = some [zshIndex (env.positionals v.known) n] := by
  have e : S "\"${" ++ (S "POSITIONALS[" ++ intStr n ++ [']']) ++ S "}\"" = "\"${POSITIONALS[".toList ++ intStr n ++ "]}\"".toList := by
    simp [S]
  rw [e]
  unfold expand
  rw [if_neg, between_some, ]
  · simp only [number_intStr, Option.map_some, element_eq]
  · intro h
    have := congrArg (fun t : Str => t[3]?) h
    simp at this

theorem expand_lower_positional {σ : Type} (env : Env σ) (v : Vars σ) (n : Int) :
    expand env v (S "\"${" ++ (S "(L)POSITIONALS[" ++ intStr n ++ [']']) ++ S "}\"") = some [lower (zshIndex (env.positionals v.known) n)] := by
  have e : S "\"${" ++ (S "(L)POSITIONALS[" ++ intStr n ++ [']']) ++ S "}\"" = "\"${(L)POSITIONALS[".toList ++ intStr n ++ "]}\"".toList := by
    simp [S]
  rw [e]
  unfold expand
  rw [if_neg, between_none, between_some]
  · simp only [number_intStr, Option.map_some, element_eq, small_eq]
  · rintro ⟨r, h⟩
    have := congrArg (fun t : Str => t[3]?) h
    simp at this
  · intro h
    have := congrArg (fun t : Str => t[3]?) h
    simp at this

/-! ## Conditions -/

/-- The texts of a condition that Zsh takes as they are. -/
def condWords : Cond → Prop
  | .optionIs opts vals _ _ => (∀ s ∈ opts, noEquals s) ∧ ∀ s ∈ vals, noEquals s
  | .optionMatch opts rx _ _ => (∀ s ∈ opts, noEquals s) ∧ noEquals rx
  | .hasOption opts => ∀ s ∈ opts, noEquals s
  | .positionalCount _ _ => True
  | .positionalContains _ _ vals => ∀ s ∈ vals, noEquals s

/-- The command of a condition. -/
def condPrim : Cond → QueryPrim
  | .optionIs opts vals nc any => .optionIs (queryArgs opts vals nc any)
  | .optionMatch opts rx nc any => .optionMatch (queryArgs opts [rx] nc any)
  | .hasOption opts => .hasOption opts
  | .positionalCount op n => .posCount op n
  | .positionalContains nc n vals => .posContains nc n (if nc then vals.map lower else vals)

theorem queryCond_eq (k : Cond) : queryCond true k = .ok [.cmd (condPrim k)] := by
  cases k <;> simp [queryCond, condPrim]

theorem queryArgs_words {opts vals : List Str} {nc any : Bool} (h1 : ∀ s ∈ opts, noEquals s) (h2 : ∀ s ∈ vals, noEquals s) :
    ∀ s ∈ queryArgs opts vals nc any, noEquals s := by
  intro s hs
  unfold queryArgs at hs
  simp only [List.mem_append, List.mem_singleton] at hs
  rcases hs with ((((h | h) | h) | h) | h) | h
  · split at h
    · rw [List.mem_singleton] at h; subst h; intro h; cases h
    · simp at h
  · split at h
    · rw [List.mem_singleton] at h; subst h; intro h; cases h
    · simp at h
  · subst h; intro h; cases h
  · exact h1 s h
  · subst h; intro h; cases h
  · exact h2 s h

theorem noEquals_id {s : Str} (h : ∀ c ∈ s, idChar c = true) : noEquals s := by
  intro he
  exact absurd (h '=' (List.mem_of_mem_head? he)) (by decide)

theorem expand_id {σ : Type} (env : Env σ) (v : Vars σ) {s : Str} (hne : s ≠ []) (h : ∀ c ∈ s, idChar c = true) : expand env v s = some [s] := by
  have := expand_quote env v (noEquals_id h)
  rwa [quote_id hne h] at this

theorem lower_noEquals {s : Str} (h : noEquals s) : noEquals (lower s) := by
  cases s with
  | nil => intro h; cases h
  | cons c r =>
    intro e
    have hc : c = '=' := by
      have e : asciiLower c = '=' := by simpa [lower] using e
      exact (lower_same c '=' (by decide)).mp e
    subst hc
    have := h rfl
    rw [this]; rfl

theorem callOf_plain {σ : Type} (env : Env σ) (v : Vars σ) {ws xs : List Str} (h : expandAll env v ws = some xs) (h1 : ws.head? ≠ some "_arguments".toList)
    (h2 : ¬ (xs.head? = some env.query ∧ xs.tail.head? = some (S "init"))) : callOf env v ws = some (env.ask v.known xs, v) := by
  unfold callOf
  rw [if_neg h1, h, Option.bind_some]
  match xs, h2 with
  | q :: i :: table :: words, h2 =>
    simp only
    rw [if_neg]
    rintro ⟨rfl, rfl⟩
    exact h2 ⟨rfl, rfl⟩
  | [], _ => rfl
  | [_], _ => rfl
  | [_, _], _ => rfl

theorem realName_arguments (pre n : Str) (hn : n = S "query" ∨ n = S "option_match" ∨ n = S "array_contains") : realName pre n ≠ S "_arguments" := by
  intro e
  have h := realName_ends pre n
  rw [e] at h
  rcases hn with rfl | rfl | rfl <;> revert h <;> decide +kernel

theorem arguments_head (pre n : Str) {r : List Str} (hn : n = S "query" ∨ n = S "option_match" ∨ n = S "array_contains") :
    (realName pre n :: r).head? ≠ some "_arguments".toList := by
  intro e
  exact realName_arguments pre n hn (Option.some.inj e)

theorem fields_three (op n : Str) (ho : ' ' ∉ op) (hn : ' ' ∉ n) (ho2 : op ≠ []) (hn2 : n ≠ []) :
    fields [] (S " ${#POSITIONALS[@]} " ++ op ++ [' '] ++ n ++ [' ']) = [S "${#POSITIONALS[@]}", op, n] := by
  have key : ∀ (t w r : Str), ' ' ∉ t → w ++ t ≠ [] → fields w (t ++ ' ' :: r) = (w ++ t) :: fields [] r := by
    intro t
    induction t with
    | nil =>
      intro w r _ hw
      rw [List.append_nil] at hw
      have : w.isEmpty = false := by simpa using hw
      simp [fields, this]
    | cons c t ih =>
      intro w r h hw
      rw [List.cons_append, fields, if_neg (fun e => h (by rw [e]; simp)), ih (w ++ [c]) r (fun hm => h (by simp [hm])) (by simp)]
      simp
  have e : S " ${#POSITIONALS[@]} " ++ op ++ [' '] ++ n ++ [' '] = ' ' :: (S "${#POSITIONALS[@]}" ++ ' ' :: (op ++ ' ' :: (n ++ ' ' :: []))) := by
    simp [S]
  rw [e, fields, if_pos rfl, if_pos (show List.isEmpty [] = true from rfl), key _ [] _ (by decide) (by decide), key _ [] _ ho (by simpa using ho2), key _ [] _ hn (by simpa using hn2)]
  rfl

theorem compares_text (op : CmpOp) (a b : Int) : compares op.text a b = some (op.holds a b) := by
  cases op
  · rw [compares, if_pos (by decide)]; rfl
  · rw [compares, if_neg (by decide), if_pos (by decide)]; simp only [CmpOp.holds, bne, Option.some.injEq]; exact decide_not
  · rw [compares, if_neg (by decide), if_neg (by decide), if_pos (by decide)]; rfl
  · rw [compares, if_neg (by decide), if_neg (by decide), if_neg (by decide), if_pos (by decide)]; rfl
  · rw [compares, if_neg (by decide), if_neg (by decide), if_neg (by decide), if_neg (by decide), if_pos (by decide)]; rfl
  · rw [compares, if_neg (by decide), if_neg (by decide), if_neg (by decide), if_neg (by decide), if_neg (by decide), if_pos (by decide)]; rfl

theorem simple_cond {pre : Str} (hp : ∀ c ∈ pre, idChar c = true) (rx : Bool → Str → Str → Bool) (root : Cmd) (q : Str → Str) (words : List Str)
    (v : Vars Parsed) (k : Cond) (h : condWords k) :
    simple (zshHelperEnv pre rx root q words) v (condSimple pre k) =
      some ((condPrim k).succeedsZsh rx ⟨v.known.having, v.known.positionals⟩, v) := by
  have hq := realName_id hp query_id
  have hm := realName_id hp match_id
  have hc := realName_id hp contains_id
  cases k with
  | optionIs opts vals nc any =>
    have hw : ∀ s ∈ S "option_is" :: queryArgs opts vals nc any, noEquals s := by
      intro s hs
      rcases List.mem_cons.mp hs with rfl | hs
      · intro h; cases h
      · exact queryArgs_words h.1 h.2 s hs
    have he := expandAll_cons (zshHelperEnv pre rx root q words) v (expand_id _ v (realName_ne pre (S "query")) hq) (expandAll_quotes _ v hw)
    rw [condSimple, simple, callOf_plain _ v he]
    · simp [zshHelperEnv, zshAsk, realName_inj, S, condPrim]
    · exact arguments_head pre _ (.inl rfl)
    · simp [S]
  | optionMatch opts r nc any =>
    have hw : ∀ s ∈ queryArgs opts [r] nc any, noEquals s := queryArgs_words h.1 (by simpa using h.2)
    have he := expandAll_cons (zshHelperEnv pre rx root q words) v (expand_id _ v (realName_ne pre (S "option_match")) hm) (expandAll_quotes _ v hw)
    rw [condSimple, simple, callOf_plain _ v he]
    · simp [zshHelperEnv, zshAsk, realName_inj, S, condPrim]
    · exact arguments_head pre _ (.inr (.inl rfl))
    · simp [zshHelperEnv, realName_inj, S]
  | hasOption opts =>
    have hw : ∀ s ∈ S "has_option" :: opts, noEquals s := by
      intro s hs
      rcases List.mem_cons.mp hs with rfl | hs
      · intro h; cases h
      · exact h s hs
    have he := expandAll_cons (zshHelperEnv pre rx root q words) v (expand_id _ v (realName_ne pre (S "query")) hq) (expandAll_quotes _ v hw)
    rw [condSimple, simple, callOf_plain _ v he]
    · simp [zshHelperEnv, zshAsk, realName_inj, S, condPrim]
    · exact arguments_head pre _ (.inl rfl)
    · simp [S]
  | positionalCount op n =>
    rw [condSimple, simple, arithmetic, fields_three _ _ (by cases op <;> decide) (intStr_not (by decide) (by decide)) (by cases op <;> decide)
      (by unfold intStr; split <;> simp [natStr, Nat.toDigits_ne_nil])]
    simp only
    rw [if_pos (show S "${#POSITIONALS[@]}" = "${#POSITIONALS[@]}".toList from rfl), number_intStr, Option.bind_some, compares_text]
    rfl
  | positionalContains nc n vals =>
    cases nc with
    | true =>
      have hw : ∀ s ∈ vals.map lower, noEquals s := by
        intro s hs
        obtain ⟨t, ht, rfl⟩ := List.mem_map.mp hs
        exact lower_noEquals (h t ht)
      have he := expandAll_cons (zshHelperEnv pre rx root q words) v (expand_id _ v (realName_ne pre (S "array_contains")) hc)
        (expandAll_cons _ v (expand_lower_positional _ v n) (expandAll_quotes _ v hw))
      rw [condSimple, if_pos rfl, simple, callOf_plain _ v he]
      · simp [zshHelperEnv, zshAsk, realName_inj, S, condPrim, QueryPrim.succeedsZsh]
      · exact arguments_head pre _ (.inr (.inr rfl))
      · simp [zshHelperEnv, realName_inj, S]
    | false =>
      have he := expandAll_cons (zshHelperEnv pre rx root q words) v (expand_id _ v (realName_ne pre (S "array_contains")) hc)
        (expandAll_cons _ v (expand_positional _ v n) (expandAll_quotes _ v h))
      rw [condSimple, if_neg (by simp), simple, callOf_plain _ v he]
      · simp [zshHelperEnv, zshAsk, realName_inj, S, condPrim, QueryPrim.succeedsZsh]
      · exact arguments_head pre _ (.inr (.inr rfl))
      · simp [zshHelperEnv, realName_inj, S]

/-! ## Lists of commands -/

theorem exec_map {σ α : Type} (env : Env σ) (v : Vars σ) (f : α → Simple) (b : α → Bool) {l : ShellGrammar.Level} {ts : List (ShellGrammar.Tok α)}
    {e : Expr α} (h : DenotesAt l ts e) (hs : ∀ k, .cmd k ∈ ts → simple env v (f k) = some (b k, v)) :
    exec env v (FishReads.mapExpr f e) = some (e.eval b, v) := by
  induction h with
  | pipe _ ih => exact ih hs
  | and _ _ ih1 ih2 =>
    rw [FishReads.mapExpr, exec, ih1 (fun k hk => hs k (by simp [hk])), Option.bind_some]
    simp only [Expr.eval]
    rename_i e f _ _
    cases he : e.eval b with
    | true => simp only [if_true, Bool.true_and]; exact ih2 (fun k hk => hs k (by simp [hk]))
    | false => simp
  | or _ _ ih1 ih2 =>
    rw [FishReads.mapExpr, exec, ih1 (fun k hk => hs k (by simp [hk])), Option.bind_some]
    simp only [Expr.eval]
    rename_i e f _ _
    cases he : e.eval b with
    | true => simp
    | false => simp only [Bool.false_eq_true, if_false, Bool.false_or]; exact ih2 (fun k hk => hs k (by simp [hk]))
  | cmd a => exact hs a (by simp)
  | not _ ih =>
    rw [FishReads.mapExpr, exec, ih (fun k hk => hs k (by simp [hk]))]
    rfl
  | group _ ih => exact ih (fun k hk => hs k (by simp [hk]))

/-- The condition of a spec in the model is the value of the expression. -/
theorem run_generate (V : QueryPrim → Bool) {ts : List (ShellGrammar.Tok Cond)} {e : Expr Cond} (h : Denotes ts e)
    {code : List (ShellGrammar.Tok QueryPrim)} (hg : zshGenerate ts = .ok code) :
    ShellGrammar.run V code = some (e.eval (fun k => V (condPrim k))) := by
  unfold zshGenerate genWithBraces at hg
  obtain ⟨r, hr, hg⟩ := bind_ok hg
  obtain ⟨e', h1, h2⟩ := gen_denotes h V (fun k => V (condPrim k)) hr (by
    intro k a _ ha
    rw [queryCond_eq] at ha
    cases ha
    exact ⟨_, .cmd _, rfl⟩)
  have hd : Denotes code e' := by
    split at hg
    · cases hg; exact .pipe (.group h1)
    · cases hg; exact h1
  unfold ShellGrammar.run
  rw [ShellGrammar.parse_complete hd, Option.map_some, h2]

/-- What a spec needs in order to be offered as in the model. -/
structure ArgRuns (a : ZshArg × Option (List (ShellGrammar.Tok Cond) × List (ShellGrammar.Tok QueryPrim))) : Prop where
  code : ∀ x, a.2 = some x → zshGenerate x.1 = .ok x.2
  cond : ∀ x, a.2 = some x → (∃ e, ShellGrammar.Denotes x.1 e) ∧ ∀ k, .cmd k ∈ x.1 → condWords k

/-- Whether the condition of a spec succeeds. -/
def whenHolds (rx : Bool → Str → Str → Bool) (p : Parsed) (a : ZshArg × Option (List (ShellGrammar.Tok Cond) × List (ShellGrammar.Tok QueryPrim))) : Bool :=
  match a.2 with
  | some x => ShellGrammar.run (QueryPrim.succeedsZsh rx ⟨p.having, p.positionals⟩) x.2 == some true
  | none => false

theorem run_args {pre : Str} (hp : ∀ c ∈ pre, idChar c = true) (rx : Bool → Str → Str → Bool) (root : Cmd) (q : Str → Str) (words : List Str)
    (args : List (ZshArg × Option (List (ShellGrammar.Tok Cond) × List (ShellGrammar.Tok QueryPrim)))) (h : ∀ a ∈ args, ArgRuns a) (r : List Stmt) :
    ∀ v : Vars Parsed, statements (zshHelperEnv pre rx root q words) v none (args.flatMap (argStmts pre) ++ r) =
      statements (zshHelperEnv pre rx root q words) { v with args := v.args ++ (args.filter (whenHolds rx v.known)).map (·.1.spec) } none r := by
  induction args with
  | nil => intro v; simp
  | cons a as ih =>
    intro v
    have ih := ih (fun x hx => h x (by simp [hx]))
    rw [List.flatMap_cons, List.append_assoc]
    have ha := h a (by simp)
    cases h2 : a.2 with
    | none =>
      rw [show argStmts pre a = [] by simp only [argStmts, h2], List.filter_cons_of_neg (by simp [whenHolds, h2])]
      exact ih v
    | some x =>
      obtain ⟨⟨e, he⟩, hw⟩ := ha.cond x h2
      have hb := denotes_map (condSimple pre) (denotes_braced he)
      have hd : Denotes ((braced x.1).map (mapTok (condSimple pre)) ++ [.and, .cmd (Simple.append (S "args+=") [a.1.spec])]) _ := .and hb (.cmd _)
      have hrun := run_generate (QueryPrim.succeedsZsh rx ⟨v.known.having, v.known.positionals⟩) he (ha.code x h2)
      have hex := exec_map (zshHelperEnv pre rx root q words) v (condSimple pre) _ he (fun k hk => simple_cond hp rx root q words v k (hw k hk))
      rw [show argStmts pre a = [whenStmt pre x.1 a.1.spec] by simp only [argStmts, h2]]
      simp only [whenStmt, List.cons_append, List.nil_append]
      rw [statements, ShellGrammar.parse_complete hd, Option.bind_some, exec, hex, Option.bind_some]
      cases hv : e.eval (fun k => (condPrim k).succeedsZsh rx ⟨v.known.having, v.known.positionals⟩) with
      | true =>
        rw [List.filter_cons_of_pos (by simp only [whenHolds, h2, hrun, hv]; rfl)]
        simp only [if_true, exec, simple]
        rw [if_pos (show S "args+=" = "args+=".toList from rfl), Option.bind_some, ih]
        simp
      | false =>
        rw [List.filter_cons_of_neg (by simp only [whenHolds, h2, hrun, hv]; decide)]
        simp only [Bool.false_eq_true, if_false, Option.bind_some]
        exact ih v

/-- The part `3-options`. -/
theorem run_options {pre : Str} (hp : ∀ c ∈ pre, idChar c = true) (rx : Bool → Str → Str → Bool) (root : Cmd) (q : Str → Str) (words : List Str)
    (stacking : Bool) (f : ZshFunction) (h : ∀ a ∈ f.args, ArgRuns a) (v : Vars Parsed) :
    ∃ v', statements (zshHelperEnv pre rx root q words) v none (optionStmts pre stacking f.args) = some (.done v') ∧ v'.known = v.known ∧
      v'.calls = v.calls ++ (if f.args = [] then [] else [(argumentsFlags stacking, f.elements rx v.known)]) := by
  unfold optionStmts
  by_cases he : f.args = []
  · rw [he]
    exact ⟨v, by simp [statements], rfl, by simp⟩
  · rw [if_neg (by simpa using he), if_neg he]
    rw [List.cons_append, statements]
    simp only [declares, declare]
    rw [if_pos (show S "args" = "args".toList from rfl), Option.bind_some, Option.bind_some, run_args hp rx root q words f.args h]
    have hparse : ShellGrammar.parse [.cmd (.call (S "_arguments" :: argumentsFlags stacking ++ [S "\"${args[@]}\""]))] =
      some (Expr.atom (Simple.call (S "_arguments" :: argumentsFlags stacking ++ [S "\"${args[@]}\""]))) := rfl
    have hflags : allSome ((S "_arguments" :: argumentsFlags stacking ++ [S "\"${args[@]}\""]).tail.dropLast.map literal) = some (argumentsFlags stacking) := by
      cases stacking <;> decide +kernel
    rw [statements, hparse, Option.bind_some, exec, simple, callOf, if_pos (show (S "_arguments" :: argumentsFlags stacking ++ [S "\"${args[@]}\""]).head? = some "_arguments".toList from rfl),
      if_pos (show (S "_arguments" :: argumentsFlags stacking ++ [S "\"${args[@]}\""]).getLast? = some "\"${args[@]}\"".toList by cases stacking <;> decide +kernel),
      hflags, Option.map_some, Option.bind_some, statements]
    refine ⟨_, rfl, rfl, ?_⟩
    rfl

/-- The part `0-init`. -/
theorem run_init {pre : Str} (hp : ∀ c ∈ pre, idChar c = true) (rx : Bool → Str → Str → Bool) (root : Cmd) (q : Str → Str) (words : List Str)
    (o : Option Str) (ho : ∀ t, o = some t → noEquals t) (v : Vars Parsed) (r : List Stmt) :
    ∃ v' : Vars Parsed, statements (zshHelperEnv pre rx root q words) v none (initStmts pre o ++ r) =
        statements (zshHelperEnv pre rx root q words) v' none r ∧
      v'.known = (o.map (fun t => zshQueryOf root t q words.tail)).getD v.known ∧ v'.calls = v.calls := by
  cases o with
  | none => exact ⟨v, rfl, rfl, rfl⟩
  | some t =>
    simp only [initStmts, List.cons_append, List.nil_append]
    rw [statements]
    simp only [declares, declare, literal_quote (ho t rfl), Option.map_some, Option.bind_some]
    rw [statements]
    simp only [declares, declare]
    rw [if_neg (by decide), if_pos (by decide +kernel), Option.bind_some, if_neg (by decide), if_pos (by decide +kernel), Option.bind_some,
      if_neg (by decide), if_pos (by decide +kernel), Option.bind_some, show literal (S "''") = some [] by decide +kernel, Option.map_some, Option.bind_some,
      Option.bind_some]
    rw [statements]
    generalize hv : (Vars.mk (σ := Parsed) _ _ _ _) = w
    have hs : w.scalars = (S "INCOMPLETE_OPTION", []) :: (S "opts", t) :: v.scalars := by rw [← hv]
    have hcalls : w.calls = v.calls := by rw [← hv]
    have e1 : expand (zshHelperEnv pre rx root q words) w (S "\"$opts\"") = some [t] := by
      unfold expand
      rw [if_neg (by decide), show between "\"${POSITIONALS[".toList "]}\"".toList (S "\"$opts\"") = none by decide +kernel,
        show between "\"${(L)POSITIONALS[".toList "]}\"".toList (S "\"$opts\"") = none by decide +kernel,
        show between "\"$".toList "\"".toList (S "\"$opts\"") = some (S "opts") by decide +kernel]
      simp only [hs]
      rw [List.find?_cons_of_neg (by decide), List.find?_cons_of_pos (by simp)]
      rfl
    have e2 : expand (zshHelperEnv pre rx root q words) w (S "\"${words[@]}\"") = some words := by
      unfold expand
      rw [if_pos (show S "\"${words[@]}\"" = "\"${words[@]}\"".toList from rfl)]
      rfl
    have e0 : expand (zshHelperEnv pre rx root q words) w (S "init") = some [S "init"] := expand_id _ w (by decide) (by decide)
    have hall := expandAll_cons _ w (expand_id (zshHelperEnv pre rx root q words) w (realName_ne pre (S "query")) (realName_id hp query_id))
      (expandAll_cons _ w e0 (expandAll_cons _ w e1 (expandAll_cons _ w e2 (ts := []) (ys := []) rfl)))
    have hcall : callOf (zshHelperEnv pre rx root q words) w [realName pre (S "query"), S "init", S "\"$opts\"", S "\"${words[@]}\""] =
        some (true, { w with known := zshQueryOf root t q words.tail }) := by
      unfold callOf
      rw [if_neg (arguments_head pre _ (.inl rfl)), hall, Option.bind_some]
      simp only [List.cons_append, List.nil_append, List.append_nil]
      rw [if_pos ⟨rfl, rfl⟩]
      rfl
    have hparse : ShellGrammar.parse [.cmd (.call [realName pre (S "query"), S "init", S "\"$opts\"", S "\"${words[@]}\""])] =
      some (Expr.atom (Simple.call [realName pre (S "query"), S "init", S "\"$opts\"", S "\"${words[@]}\""])) := rfl
    refine ⟨{ w with known := zshQueryOf root t q words.tail }, ?_, rfl, hcalls⟩
    rw [hparse, Option.bind_some, exec, simple, hcall, Option.bind_some]

theorem withoutBreaks_index {a : List Str} (h : ∀ w ∈ a, w.getLast? ≠ some '\n') (n : Int) : withoutBreaks (zshIndex a n) = zshIndex a n := by
  have key : ∀ w : Str, w.getLast? ≠ some '\n' → withoutBreaks w = w := by
    intro w hw
    unfold withoutBreaks
    rw [List.getLast?_eq_head?_reverse] at hw
    have : w.reverse.dropWhile (· == '\n') = w.reverse := by
      cases hr : w.reverse with
      | nil => rfl
      | cons c r =>
        rw [hr] at hw
        rw [List.dropWhile_cons_of_neg]
        simpa using hw
    rw [this, List.reverse_reverse]
  apply key
  have : zshIndex a n = [] ∨ zshIndex a n ∈ a := by
    unfold zshIndex
    split
    · exact .inl rfl
    · simp only
      split
      · split
        · exact .inl rfl
        · cases hh : a[((a.length : Int) + n).toNat]? with
          | none => exact .inl rfl
          | some x => exact .inr (List.mem_of_getElem? hh)
      · split
        · exact .inl rfl
        · cases hh : a[(n - 1).toNat]? with
          | none => exact .inl rfl
          | some x => exact .inr (List.mem_of_getElem? hh)
  rcases this with e | e
  · rw [e]; simp
  · exact h _ e

/-- The part `2-subcommands`. -/
theorem run_case {pre : Str} (hp : ∀ c ∈ pre, idChar c = true) (rx : Bool → Str → Str → Bool) (root : Cmd) (q : Str → Str) (words : List Str)
    (parents : List Cmd) (c : Cmd) (hv : ∀ d ∈ c.children, ∀ w ∈ variations c d, noEquals w) (v : Vars Parsed)
    (hb : ∀ w ∈ v.known.positionals, w.getLast? ≠ some '\n') (r : List Stmt) :
    statements (zshHelperEnv pre rx root q words) v none (caseStmts pre parents c ++ r) =
      match c.sub with
      | none => statements (zshHelperEnv pre rx root q words) v none r
      | some n => match c.children.find? (fun d => (variations c d).contains (zshIndex v.known.positionals (positionalNum parents n))) with
        | some d => some (.goesOn (zshName pre (parents ++ [c]) d) v)
        | none => statements (zshHelperEnv pre rx root q words) v none r := by
  unfold caseStmts
  cases hs : c.sub with
  | none => rfl
  | some n =>
    simp only
    have hword : caseWord (zshHelperEnv pre rx root q words) v (caseText pre (positionalNum parents n)) =
        some (zshIndex v.known.positionals (positionalNum parents n)) := by
      have hnat : intStr (positionalNum parents n : Nat) = natStr (positionalNum parents n) := by
        unfold intStr
        rw [if_neg (by omega)]
        rfl
      have hw : Posix.words (realName pre (S "query") ++ S " get_positional " ++ natStr (positionalNum parents n)) =
          some [realName pre (S "query"), S "get_positional", natStr (positionalNum parents n)] := by
        have hn : ∀ k, quote (natStr k) = natStr k := fun k => quote_safe _ Nat.toDigits_ne_nil (fun c hc => by
          have := natStr_isDigit hc
          unfold isSafeChar
          simp [Char.isAlphanum, this])
        have := C02_join_quoted_roundtrip [realName pre (S "query"), S "get_positional", natStr (positionalNum parents n)]
        simp only [joinQuoted, List.map_cons, List.map_nil, joinWith, quote_id (realName_ne pre (S "query")) (realName_id hp query_id), hn,
          show quote (S "get_positional") = S "get_positional" by decide +kernel] at this
        rw [← this]
        congr 1
        simp [S]
      unfold caseWord caseText
      rw [show ∀ t : Str, S "\"$(" ++ t ++ S ")\"" = "\"$(".toList ++ t ++ ")\"".toList from fun _ => rfl, between_some, Option.bind_some, hw]
      simp only
      rw [if_pos ⟨rfl, rfl⟩, ← hnat, number_intStr, Option.map_some, element_eq]
      congr 1
      exact withoutBreaks_index hb _
    rw [List.cons_append, List.cons_append, statements, hword, Option.bind_some]
    generalize zshIndex v.known.positionals (positionalNum parents n) = w
    have key : ∀ ds : List Cmd, (∀ d ∈ ds, ∀ w ∈ variations c d, noEquals w) →
        statements (zshHelperEnv pre rx root q words) v (some w)
          (ds.map (fun d => .arm ((variations c d).map (fun w => quote w)) (zshName pre (parents ++ [c]) d)) ++ [.esac] ++ r) =
        match ds.find? (fun d => (variations c d).contains w) with
        | some d => some (.goesOn (zshName pre (parents ++ [c]) d) v)
        | none => statements (zshHelperEnv pre rx root q words) v none r := by
      intro ds
      induction ds with
      | nil => intro _; rfl
      | cons d ds ih =>
        intro h
        rw [List.map_cons, List.cons_append, List.cons_append, statements, allSome_literals (h d (by simp)), Option.bind_some]
        by_cases hm : w ∈ variations c d
        · rw [if_pos hm, List.find?_cons_of_pos (by simpa using hm)]
        · rw [if_neg hm, List.find?_cons_of_neg (by simpa using hm)]
          exact ih (fun x hx => h x (by simp [hx]))
    exact key c.children hv

end ZshLex
end CC
