import Verif.Lemmas.ZshFileText
import Verif.Props.StrUtils
/-!
# Lemmas: how Zsh reads the text of the completion functions
-/

namespace CC
namespace ZshLex
open ZshText
open ShellGrammar (Expr)

/-! ## `query init` -/

/-- The statements of the part `0-init`. -/
def initStmts (pre : Str) : Option Str → List Stmt
  | none => []
  | some table =>
    [.locals [.scalar (S "opts") (quote table)],
     .locals [.array (S "HAVING_OPTIONS") [], .array (S "OPTION_VALUES") [], .array (S "POSITIONALS") [], .scalar (S "INCOMPLETE_OPTION") (S "''")],
     .list [.cmd (.call [realName pre (S "query"), S "init", S "\"$opts\"", S "\"${words[@]}\""])]]

theorem means_opts (table : Str) (h : '\n' ∉ table) : Means [S "local opts=" ++ quote table] [.locals [.scalar (S "opts") (quote table)]] := by
  have hw : IsWord (S "opts=" ++ quote table) := by
    refine isWord_of_adds (adds_append (adds_safe _ (by decide +kernel)) (adds_quote table h)) (c := 'o') rfl (by decide)
  have e : S "local opts=" ++ quote table = S "local" ++ ' ' :: (S "opts=" ++ quote table) := by simp [S]
  rw [e]
  refine means_reads (reads_space (reads_word (isWord_of rfl)) (reads_word hw)) (pass_flat 0 _ (by
    intro t ht
    simp only [List.mem_append, List.mem_singleton] at ht
    rcases ht with rfl | rfl <;> rfl)) (by simp) ?_
  show stmt [.word (S "local"), .word (S "opts=" ++ quote table)] = _
  rfl

theorem list_call {f : Str} (hf : plainWord f) (a : Str) (ws : List Str) :
    list (.word f :: .word a :: ws.map .word) = some (.list [.cmd (.call (f :: a :: ws))]) := by
  unfold list
  have h := scan_words (a :: ws) [f] []
  rw [List.append_nil, List.map_cons] at h
  have e : scan .start (.word f :: .word a :: ws.map .word) = scan (.command [f]) (.word a :: ws.map .word) := by
    simp only [scan]
    rw [if_neg (show ¬ f = "!".toList from hf.1), if_neg (show ¬ f = "{".toList from hf.2.1), if_neg (show ¬ f = "}".toList from hf.2.2)]
  rw [e, h]
  simp [scan, scanEnd]

theorem stmt_call {f : Str} (hf : plainWord f) (h1 : f ≠ S "local") (h2 : f ≠ S "case") (a : Str) (ws : List Str) :
    stmt (.word f :: .word a :: ws.map .word) = some (.list [.cmd (.call (f :: a :: ws))]) := by
  rw [← list_call hf]
  unfold stmt
  rw [if_neg]
  · simp only
    rw [if_neg (show ¬ f = "local".toList from h1), if_neg (show ¬ f = "case".toList from h2)]
  · intro e
    have := List.mem_of_mem_getLast? e
    simp at this

theorem realName_reserved (pre n w : Str) (hn : n = S "query") (hw : w = S "local" ∨ w = S "case") : realName pre n ≠ w := by
  intro e
  have h := realName_ends pre n
  rw [e, hn] at h
  rcases hw with rfl | rfl <;> revert h <;> decide +kernel

theorem means_init {pre : Str} (hp : ∀ c ∈ pre, idChar c = true) {o : Option Str} (h : ∀ t, o = some t → '\n' ∉ t) :
    Means (zshInitLines pre o) (initStmts pre o) := by
  cases o with
  | none => exact means_nil
  | some table =>
    refine means_append (a := [_]) (x := [_]) (means_opts table (h table rfl)) (means_append (a := [_]) (x := [_]) ?_ ?_)
    · exact means_line (ts := [.word (S "local"), .word (S "HAVING_OPTIONS="), .attached, .rpar, .word (S "OPTION_VALUES="), .attached, .rpar,
        .word (S "POSITIONALS="), .attached, .rpar, .word (S "INCOMPLETE_OPTION=''")]) (line_of (by decide +kernel)) (by rfl) (by simp) (by decide +kernel)
    · have hq := realName_id hp query_id
      have e : realName pre (S "query") ++ S " init \"$opts\" \"${words[@]}\"" =
          realName pre (S "query") ++ ' ' :: (S "init" ++ ' ' :: (S "\"$opts\"" ++ ' ' :: S "\"${words[@]}\"")) := by simp [S]
      rw [e]
      refine means_reads (reads_space (reads_word (isWord_id (realName_ne pre _) hq)) (reads_space (reads_word (isWord_of rfl))
        (reads_space (reads_word (isWord_of (by decide +kernel))) (reads_word (isWord_of (by decide +kernel)))))) (pass_words 0 [_, _, _, _]) (by simp)
        (stmt_call (realName_plain _ _) (realName_reserved _ _ _ rfl (Or.inl rfl)) (realName_reserved _ _ _ rfl (Or.inr rfl)) _ [_, _])

/-! ## The call of subcommands -/

/-- The word of the `case`. -/
def caseText (pre : Str) (k : Nat) : Str := S "\"$(" ++ (realName pre (S "query") ++ S " get_positional " ++ natStr k) ++ S ")\""

/-- The statements of the part `2-subcommands`. -/
def caseStmts (pre : Str) (parents : List Cmd) (c : Cmd) : List Stmt :=
  match c.sub with
  | none => []
  | some n =>
    .caseOf (caseText pre (positionalNum parents n)) ::
      c.children.map (fun d => .arm ((variations c d).map (fun w => quote w)) (zshName pre (parents ++ [c]) d)) ++ [.esac]

/-- The tokens of patterns. -/
def barToks : List Str → List Tok
  | [] => []
  | [w] => [.word w]
  | a :: b :: r => .word a :: .bar :: barToks (b :: r)

theorem run_bar {t : Str} {c : Char} (hc : t.head? = some c) (hb : c ≠ '|') (o : List Tok) : run ⟨.bar, [], o⟩ t = run ⟨.gap, [], o ++ [.bar]⟩ t := by
  cases t with
  | nil => cases hc
  | cons d ds =>
    simp only [List.head?_cons, Option.some.injEq] at hc
    subst hc
    simp only [run, step, if_neg hb]

theorem begins_bar {c : Char} (h : begins c = true) : c ≠ '|' := by rintro rfl; revert h; decide

theorem joinBar_head (a : Str) (r : List Str) : ∃ c, (joinWith ['|'] ((a :: r).map (fun s => quote s)) ++ [')']).head? = some c ∧ c ≠ '|' := by
  obtain ⟨c, h1, h2⟩ := quote_begins a
  refine ⟨c, ?_, begins_bar h2⟩
  have : ∀ rest : Str, (quote a ++ rest).head? = some c := by
    intro rest; rw [List.head?_append, h1]; rfl
  cases r with
  | nil => exact this _
  | cons b r => simp only [List.map_cons, joinWith, List.append_assoc]; exact this _

theorem run_bars : ∀ (ws : List Str), ws ≠ [] → (∀ w ∈ ws, '\n' ∉ w) → ∀ o,
    run ⟨.gap, [], o⟩ (joinWith ['|'] (ws.map (fun s => quote s)) ++ [')']) = some ⟨.gap, [], o ++ barToks (ws.map (fun w => quote w)) ++ [.rpar]⟩
  | [], h, _ => absurd rfl h
  | [a], _, h => by
    intro o
    have := reads_word (isWord_quote a (h a (by simp))) o ')' (by simp)
    simp only [List.map_cons, List.map_nil, joinWith, barToks]
    rw [this]; simp [gapStep]
  | a :: b :: r, _, h => by
    intro o
    have ih := run_bars (b :: r) (by simp) (fun w hw => h w (by simp [hw])) (o ++ [.word (quote a)] ++ [.bar])
    have h1 := reads_word (isWord_quote a (h a (by simp))) o '|' (by simp)
    obtain ⟨c, hc, hb⟩ := joinBar_head b r
    have e : joinWith ['|'] ((a :: b :: r).map (fun s => quote s)) ++ [')'] =
        (quote a ++ ['|']) ++ (joinWith ['|'] ((b :: r).map (fun s => quote s)) ++ [')']) := by simp [joinWith]
    rw [e, run_append, h1]
    have hg : gapStep (o ++ [.word (quote a)]) '|' = some ⟨.bar, [], o ++ [.word (quote a)]⟩ := by simp [gapStep]
    rw [hg, Option.bind_some, run_bar hc hb, ih]
    simp [barToks]

theorem patterns_bars : ∀ (ws : List Str), ws ≠ [] → ∀ r, patterns (barToks ws ++ .rpar :: r) = some (ws, r)
  | [], h => absurd rfl h
  | [w], _ => by intro r; simp [barToks, patterns]
  | a :: b :: q, _ => by
    intro r
    have ih := patterns_bars (b :: q) (by simp) r
    simp only [barToks, List.cons_append, patterns]
    rw [ih]; rfl

theorem barToks_flat (ws : List Str) : ∀ t ∈ barToks ws, flat t = true := by
  induction ws with
  | nil => simp [barToks]
  | cons a r ih =>
    cases r with
    | nil => intro t ht; simp [barToks] at ht; subst ht; rfl
    | cons b q =>
      intro t ht
      simp only [barToks, List.mem_cons] at ht
      rcases ht with rfl | rfl | ht
      · rfl
      · rfl
      · exact ih t ht

/-- The tokens behind the patterns. -/
def armTail (f : Str) : List Tok := [.word f, .semi, .word (S "return"), .word (S "$?"), .dsemi]

theorem quote_esac {w : Str} (h : quote w = S "esac") : w = S "esac" := by
  have h1 := read_quote_word [] w []
  rw [h] at h1
  have h2 : Posix.read .word [] (S "esac" ++ []) = some [S "esac"] := by decide +kernel
  rw [h2] at h1
  simp [Posix.read] at h1
  exact h1.symm

theorem means_arm {f : Str} (hf : IsWord f) (ws : List Str) (hne : ws ≠ []) (h : ∀ w ∈ ws, '\n' ∉ w) (he : S "esac" ∉ ws) :
    Means [S "  " ++ joinWith ['|'] (ws.map (fun s => quote s)) ++ S ") " ++ f ++ S "; return $?;;"] [.arm (ws.map (fun w => quote w)) f] := by
  have hl : LineReads (S "  " ++ joinWith ['|'] (ws.map (fun s => quote s)) ++ S ") " ++ f ++ S "; return $?;;")
      ((barToks (ws.map (fun w => quote w)) ++ Tok.rpar :: armTail f) ++ [.nl]) := by
    have e : S "  " ++ joinWith ['|'] (ws.map (fun s => quote s)) ++ S ") " ++ f ++ S "; return $?;;" =
        List.replicate 2 ' ' ++ ((joinWith ['|'] (ws.map (fun s => quote s)) ++ [')']) ++ ' ' :: ((f ++ [';']) ++ S " return $?;;")) := by simp [S]
    rw [e]
    apply line_spaces
    intro o
    have e2 : (joinWith ['|'] (ws.map (fun s => quote s)) ++ [')']) ++ ' ' :: ((f ++ [';']) ++ S " return $?;;") ++ ['\n'] =
        (joinWith ['|'] (ws.map (fun s => quote s)) ++ [')']) ++ (' ' :: ((f ++ [';']) ++ S " return $?;;\n")) := by simp [S]
    rw [e2, run_append, run_bars ws hne h, Option.bind_some, run_cons]
    simp only [step, gapStep_space, Option.bind_some]
    rw [run_append, reads_word hf _ ';' (by simp)]
    have hg : ∀ o, gapStep o ';' = some ⟨.semi, [], o⟩ := by intro o; simp [gapStep]
    rw [hg, Option.bind_some]
    have hr : run ⟨.semi, [], []⟩ (S " return $?;;\n") = some ⟨.gap, [], [.semi, .word (S "return"), .word (S "$?"), .dsemi, .nl]⟩ := by decide +kernel
    rw [run_out hr]
    simp [armTail]
  refine means_line (k := barToks (ws.map (fun w => quote w)) ++ Tok.rpar :: armTail f) hl ?_ (by simp [armTail]) ?_
  · rw [pass_append _ _ 0 0 _ (pass_flat 0 _ (barToks_flat _))]
    rfl
  · unfold stmt
    rw [if_pos (by rw [List.getLast?_append]; rfl), patterns_bars _ (by simpa using hne)]
    have : (ws.map (fun w => quote w)).head? ≠ some "esac".toList := by
      intro e
      have hm := List.mem_of_mem_head? e
      obtain ⟨w, hw, hq⟩ := List.mem_map.mp hm
      exact he (quote_esac hq ▸ hw)
    simp only [Option.bind_some, armOf, armTail]
    rw [if_pos ⟨rfl, rfl, this⟩]

theorem case_sub {pre : Str} (hp : ∀ c ∈ pre, idChar c = true) (k : Nat) :
    ∀ c ∈ realName pre (S "query") ++ S " get_positional " ++ natStr k, c ∉ ['"', '\'', '\\', '`', '$', '(', ')'] := by
  intro c hc
  simp only [List.mem_append] at hc
  have key : isSafeChar c = true ∨ c = ' ' → c ∉ ['"', '\'', '\\', '`', '$', '(', ')'] := by
    intro h hm
    simp only [List.mem_cons, List.not_mem_nil, or_false] at hm
    rcases h with h | h
    · rcases hm with rfl | rfl | rfl | rfl | rfl | rfl | rfl <;> revert h <;> decide
    · subst h; revert hm; decide
  apply key
  rcases hc with (h | h) | h
  · exact Or.inl (idChar_safe (realName_id hp query_id c h))
  · have : ∀ c ∈ S " get_positional ", isSafeChar c = true ∨ c = ' ' := by decide +kernel
    exact this c h
  · refine Or.inl (idChar_safe ?_)
    have := natStr_isDigit h
    simp only [idChar, Bool.or_eq_true]
    left
    simp [isAsciiAlnum, Char.isAlphanum, this]

theorem means_case {pre : Str} (hp : ∀ c ∈ pre, idChar c = true) (parents : List Cmd) (c : Cmd)
    (hn : ∀ d ∈ c.children, IsWord (zshName pre (parents ++ [c]) d))
    (hv : ∀ d ∈ c.children, variations c d ≠ [] ∧ S "esac" ∉ variations c d ∧ ∀ w ∈ variations c d, '\n' ∉ w) :
    Means (zshCaseLines pre parents c) (caseStmts pre parents c) := by
  unfold zshCaseLines caseStmts
  cases c.sub with
  | none => exact means_nil
  | some n =>
    simp only
    refine means_append (means_append (a := [_]) (x := [_]) ?_ ?_) ?_
    · have e : S "case \"$(" ++ realName pre (S "query") ++ S " get_positional " ++ natStr (positionalNum parents n) ++ S ")\" in" =
          S "case" ++ ' ' :: (caseText pre (positionalNum parents n) ++ ' ' :: S "in") := by simp [S, caseText]
      rw [e]
      refine means_reads (reads_space (reads_word (isWord_of rfl)) (reads_space (reads_word (isWord_sub _ (case_sub hp _))) (reads_word (isWord_of rfl))))
        (pass_words 0 [_, _, _]) (by simp) rfl
    · generalize c.children = ds at hn hv
      induction ds with
      | nil => exact means_nil
      | cons d ds ih =>
        obtain ⟨v1, v2, v3⟩ := hv d (by simp)
        exact means_append (a := [_]) (x := [_]) (means_arm (hn d (by simp)) _ v1 v3 v2)
          (ih (fun x hx => hn x (by simp [hx])) (fun x hx => hv x (by simp [hx])))
    · exact means_reads (ts := [.word (S "esac")]) (reads_word (isWord_of rfl)) (pass_words 0 [_]) (by simp) rfl

/-! ## The options -/

/-- The flags of `_arguments`. -/
def argumentsFlags (stacking : Bool) : List Str := if stacking then [S "-S", S "-s", S "-w"] else [S "-S"]

/-- The statements of a spec. -/
def argStmts (pre : Str) (a : ZshArg × Option (List (ShellGrammar.Tok Cond) × List (ShellGrammar.Tok QueryPrim))) : List Stmt :=
  match a.2 with
  | some x => [whenStmt pre x.1 a.1.spec]
  | none => []

/-- The statements of the part `3-options`. -/
def optionStmts (pre : Str) (stacking : Bool) (args : List (ZshArg × Option (List (ShellGrammar.Tok Cond) × List (ShellGrammar.Tok QueryPrim)))) : List Stmt :=
  if args.isEmpty then []
  else .locals [.array (S "args") ((args.filter (fun a => a.2.isNone)).map (·.1.spec))] ::
    args.flatMap (argStmts pre) ++
    [.list [.cmd (.call (S "_arguments" :: argumentsFlags stacking ++ [S "\"${args[@]}\""]))]]

theorem means_arguments (stacking : Bool) : Means [zshArgumentsLine stacking]
    [.list [.cmd (.call (S "_arguments" :: argumentsFlags stacking ++ [S "\"${args[@]}\""]))]] := by
  cases stacking with
  | true => exact means_line (ts := ([S "_arguments", S "-S", S "-s", S "-w", S "\"${args[@]}\""].map Tok.word)) (line_of (by decide +kernel)) (pass_words 0 _) (by simp) (by decide +kernel)
  | false => exact means_line (ts := ([S "_arguments", S "-S", S "\"${args[@]}\""].map Tok.word)) (line_of (by decide +kernel)) (pass_words 0 _) (by simp) (by decide +kernel)

theorem localItems_elements (ws : List Str) (n : Str) : ∀ vs, localItems (some (n, vs)) (ws.map .word ++ [.rpar]) = some [.array n (vs ++ ws)] := by
  induction ws with
  | nil => intro vs; simp [localItems]
  | cons w ws ih => intro vs; simp only [List.map_cons, List.cons_append, localItems]; rw [ih]; simp

theorem allRead_specs (specs : List Str) (h : ∀ s ∈ specs, IsWord s) : AllRead (specs.map (S "  " ++ ·)) (specs.flatMap (fun s => [Tok.word s, .nl])) := by
  induction specs with
  | nil => exact .nil
  | cons s r ih =>
    rw [List.map_cons, List.flatMap_cons]
    exact .cons (line_spaces 2 (line_of_reads (reads_word (h s (by simp))))) (ih (fun x hx => h x (by simp [hx])))

theorem pass_specs (specs : List Str) (r : List Tok) : pass 1 (specs.flatMap (fun s => [Tok.word s, .nl]) ++ r) =
    (pass 1 r).map (fun x => (x.1, specs.map .word ++ x.2)) := by
  induction specs with
  | nil => simp
  | cons s q ih =>
    rw [List.flatMap_cons, List.append_assoc]
    simp only [List.cons_append, List.nil_append, pass]
    rw [ih]
    cases pass 1 r <;> simp

theorem means_plain (specs : List Str) (h : ∀ s ∈ specs, IsWord s) : Means (zshPlainLines specs) [.locals [.array (S "args") specs]] := by
  cases specs with
  | nil => exact means_line (ts := [.word (S "local"), .word (S "-a"), .word (S "args="), .attached, .rpar]) (line_of (by decide +kernel)) rfl (by simp) (by decide +kernel)
  | cons s r =>
    have h1 : AllRead [S "local -a args=("] [.word (S "local"), .word (S "-a"), .word (S "args="), .attached, .nl] := allRead_one (line_of (by decide +kernel))
    have h2 := allRead_specs (s :: r) h
    have h3 : AllRead [S ")"] [.rpar, .nl] := allRead_one (line_of (by decide +kernel))
    refine ⟨_, allRead_append (allRead_append h1 h2) h3, ?_⟩
    have e : ([Tok.word (S "local"), .word (S "-a"), .word (S "args="), .attached, .nl] ++ (s :: r).flatMap (fun s => [Tok.word s, .nl])) ++ [Tok.rpar, .nl] =
        ([Tok.word (S "local"), .word (S "-a"), .word (S "args="), .attached, .nl] ++ ((s :: r).flatMap (fun s => [Tok.word s, .nl]) ++ [.rpar])) ++ [.nl] := by simp
    rw [e]
    refine gives_one (l := [Tok.word (S "local"), .word (S "-a"), .word (S "args="), .attached] ++ ((s :: r).map .word ++ [.rpar])) ?_ (by simp) ?_
    · simp only [List.cons_append, List.nil_append, pass]
      have := pass_specs (s :: r) [.rpar]
      simp only [List.map_cons, List.cons_append] at this
      rw [this]
      rfl
    · unfold stmt
      rw [if_neg (by rw [List.getLast?_append, List.getLast?_append]; simp)]
      have := localItems_elements (s :: r) (S "args") []
      simp only [List.map_cons, List.cons_append, List.nil_append] at this ⊢
      rw [if_pos (show S "local" = "local".toList from rfl)]
      simp only [localItems]
      rw [if_pos (show S "-a" = "-a".toList from rfl)]
      have hs : splitEquals (S "args=") = some (S "args", []) := by decide +kernel
      have h2 := localItems_elements r (S "args") [s]
      simp only [hs, List.nil_append, h2, Option.map_some, List.cons_append]

/-- What the lines of the specs need. -/
structure ArgOk (a : ZshArg × Option (List (ShellGrammar.Tok Cond) × List (ShellGrammar.Tok QueryPrim))) : Prop where
  word : IsWord a.1.spec
  cond : ∀ x, a.2 = some x → (∃ e, ShellGrammar.Denotes x.1 e) ∧ ∀ k, .cmd k ∈ x.1 → condClean k

theorem means_args {pre : Str} (hp : ∀ c ∈ pre, idChar c = true)
    (args : List (ZshArg × Option (List (ShellGrammar.Tok Cond) × List (ShellGrammar.Tok QueryPrim)))) (h : ∀ a ∈ args, ArgOk a) :
    Means (args.flatMap (zshArgLines pre)) (args.flatMap (argStmts pre)) := by
  induction args with
  | nil => exact means_nil
  | cons a r ih =>
    rw [List.flatMap_cons, List.flatMap_cons]
    refine means_append ?_ (ih (fun x hx => h x (by simp [hx])))
    have ha := h a (by simp)
    unfold zshArgLines argStmts
    cases hx : a.2 with
    | none => exact means_nil
    | some x =>
      simp only
      obtain ⟨⟨e, he⟩, hk⟩ := ha.cond x hx
      exact means_when hp he hk ha.word

theorem means_options {pre : Str} (hp : ∀ c ∈ pre, idChar c = true) (stacking : Bool)
    (args : List (ZshArg × Option (List (ShellGrammar.Tok Cond) × List (ShellGrammar.Tok QueryPrim)))) (h : ∀ a ∈ args, ArgOk a) :
    Means (zshOptionLines pre stacking args) (optionStmts pre stacking args) := by
  unfold zshOptionLines optionStmts
  split
  · exact means_nil
  · refine means_append (means_append (x := [_]) ?_ (means_args hp args h)) (means_arguments stacking)
    apply means_plain
    intro s hs
    obtain ⟨a, ha, rfl⟩ := List.mem_map.mp hs
    exact (h a (List.mem_filter.mp ha).1).word

/-! ## Functions -/

/-- Sections with an empty line between them. -/
def sections : List (List Str) → List Str
  | [] => []
  | [p] => p
  | p :: q :: r => p ++ [[]] ++ sections (q :: r)

theorem join_sections : ∀ (ps : List (List Str)), ps ≠ [] → (∀ p ∈ ps, p ≠ []) →
    joinWith ['\n', '\n'] (ps.map (joinWith ['\n'])) = joinWith ['\n'] (sections ps)
  | [], h, _ => absurd rfl h
  | [p], _, _ => by simp [joinWith, sections]
  | p :: q :: r, _, h => by
    have ih := join_sections (q :: r) (by simp) (fun x hx => h x (by simp [hx]))
    simp only [List.map_cons, joinWith, sections] at ih ⊢
    rw [ih]
    have key : ∀ (a b : List Str), a ≠ [] → b ≠ [] → joinWith ['\n'] a ++ ['\n', '\n'] ++ joinWith ['\n'] b = joinWith ['\n'] (a ++ [[]] ++ b) := by
      intro a b ha hb
      induction a with
      | nil => exact absurd rfl ha
      | cons x a iha =>
        cases a with
        | nil =>
          obtain ⟨y, ys, rfl⟩ := List.exists_cons_of_ne_nil hb
          simp [joinWith]
        | cons z a =>
          have := iha (by simp)
          simp only [joinWith, List.cons_append, List.append_assoc] at this ⊢
          rw [this]
    apply key _ _ (h p (by simp))
    intro e
    have hq := h q (by simp)
    cases r with
    | nil => simp only [sections] at e; exact hq e
    | cons x y => simp only [sections, List.append_eq_nil_iff] at e; exact hq e.1.1

theorem means_sections : ∀ (ps : List (List Str × List Stmt)), ps ≠ [] → (∀ p ∈ ps, Means p.1 p.2) →
    Means (sections (ps.map (·.1))) (ps.flatMap (·.2))
  | [], h, _ => absurd rfl h
  | [p], _, h => by simpa [sections] using h p (by simp)
  | p :: q :: r, _, h => by
    have ih := means_sections (q :: r) (by simp) (fun x hx => h x (by simp [hx]))
    simp only [List.map_cons, sections, List.flatMap_cons] at ih ⊢
    have := means_append (means_append (h p (by simp)) means_blank) ih
    rw [List.append_nil] at this
    exact this

theorem sections_mem : ∀ (ps : List (List Str)) (x : Str), x ∈ sections ps → x = [] ∨ ∃ p ∈ ps, x ∈ p
  | [], x, h => by simp [sections] at h
  | [p], x, h => by simp only [sections] at h; exact Or.inr ⟨p, by simp, h⟩
  | p :: q :: r, x, h => by
    simp only [sections, List.mem_append, List.mem_singleton] at h
    rcases h with (h | h) | h
    · exact Or.inr ⟨p, by simp, h⟩
    · exact Or.inl h
    · rcases sections_mem (q :: r) x h with h | ⟨y, hy, hx⟩
      · exact Or.inl h
      · exact Or.inr ⟨y, by simp [hy], hx⟩

theorem joinBreak_ne {p : List Str} (h : p ≠ []) (hl : ∀ l ∈ p, l ≠ []) : joinWith ['\n'] p ≠ [] := by
  cases p with
  | nil => exact absurd rfl h
  | cons a r =>
    have ha := hl a (by simp)
    cases r with
    | nil => simpa [joinWith] using ha
    | cons b q => simp [joinWith]

/-- The lines of the body of a function. -/
theorem body_lines (ps : List (List Str × List Stmt)) (h : ∀ p ∈ ps, Means p.1 p.2 ∧ (p.1 = [] → p.2 = []) ∧ ∀ l ∈ p.1, l ≠ [] ∧ '\n' ∉ l) :
    ∃ L : List Str, L ≠ [] ∧ (∀ l ∈ L, '\n' ∉ l) ∧ Means L (ps.flatMap (·.2)) ∧
      joinWith ['\n', '\n'] (((ps.map (·.1)).map (joinWith ['\n'])).filter (fun s => !s.isEmpty)) = joinWith ['\n'] L := by
  have hfilter : ((ps.map (·.1)).map (joinWith ['\n'])).filter (fun s => !s.isEmpty) =
      ((ps.filter (fun p => !p.1.isEmpty)).map (·.1)).map (joinWith ['\n']) := by
    induction ps with
    | nil => rfl
    | cons p ps ih =>
      have hp := h p (by simp)
      have := ih (fun x hx => h x (by simp [hx]))
      cases hp1 : p.1 with
      | nil => simpa [hp1, joinWith] using this
      | cons a r =>
        have hne := joinBreak_ne (p := p.1) (by rw [hp1]; simp) (fun l hl => (hp.2.2 l hl).1)
        have e1 : (joinWith ['\n'] p.1).isEmpty = false := by simpa using hne
        have e2 : p.1.isEmpty = false := by rw [hp1]; rfl
        simp only [List.map_cons, List.filter_cons, e1, e2, Bool.not_false, if_true, this]
  have hstmts : ps.flatMap (·.2) = (ps.filter (fun p => !p.1.isEmpty)).flatMap (·.2) := by
    clear hfilter
    induction ps with
    | nil => rfl
    | cons p ps ih =>
      have := ih (fun x hx => h x (by simp [hx]))
      rw [List.flatMap_cons, this]
      cases hp1 : p.1 with
      | nil => simp [hp1, (h p (by simp)).2.1 hp1]
      | cons a r => simp [hp1]
  rw [hfilter, hstmts]
  have hm : ∀ p ∈ ps.filter (fun p => !p.1.isEmpty), p ∈ ps ∧ p.1 ≠ [] := by
    intro p hp
    simpa using List.mem_filter.mp hp
  generalize ps.filter (fun p => !p.1.isEmpty) = qs at hm
  by_cases hq : qs = []
  · subst hq
    exact ⟨[[]], by simp, by simp, means_blank, rfl⟩
  · refine ⟨sections (qs.map (·.1)), ?_, ?_, means_sections qs hq (fun p hp => (h p (hm p hp).1).1), ?_⟩
    · obtain ⟨q, r, rfl⟩ := List.exists_cons_of_ne_nil hq
      have := (hm q (by simp)).2
      cases r with
      | nil => simpa [sections] using this
      | cons x y => simp [sections]
    · intro l hl
      rcases sections_mem _ _ hl with hl | ⟨p, hp, hx⟩
      · subst hl; simp
      · obtain ⟨q, hq1, rfl⟩ := List.mem_map.mp hp
        exact ((h q (hm q hq1).1).2.2 l hx).2
    · apply join_sections _ (by simpa using hq)
      intro p hp
      obtain ⟨q, hq1, rfl⟩ := List.mem_map.mp hp
      exact (hm q hq1).2

/-- The indentation of a line. -/
def pad (l : Str) : Str := if stripTruthy l then List.replicate 2 ' ' ++ l else l

theorem pad_spaces (l : Str) : ∃ n, pad l = List.replicate n ' ' ++ l := by
  unfold pad
  split
  · exact ⟨2, rfl⟩
  · exact ⟨0, rfl⟩

theorem indent_lines (L : List Str) (hne : L ≠ []) (h : ∀ l ∈ L, '\n' ∉ l) : indent (joinWith ['\n'] L) 2 = joinWith ['\n'] (L.map pad) := by
  unfold indent
  rw [splitOn_join _ _ hne h]
  rfl

theorem join_cons (a : Str) (L : List Str) (h : L ≠ []) : joinWith ['\n'] (a :: L) = a ++ ['\n'] ++ joinWith ['\n'] L := by
  obtain ⟨b, r, rfl⟩ := List.exists_cons_of_ne_nil h
  rfl

theorem join_snoc (b : Str) : ∀ (L : List Str), L ≠ [] → joinWith ['\n'] (L ++ [b]) = joinWith ['\n'] L ++ ['\n'] ++ b
  | [], h => absurd rfl h
  | [a], _ => by simp [joinWith]
  | a :: c :: r, _ => by
    have := join_snoc b (c :: r) (by simp)
    simp only [List.cons_append, joinWith] at this ⊢
    rw [this]; simp

theorem means_opening {n : Str} (h : IsWord n) : Means [n ++ S "() {"] [.opening n] := by
  have hl : LineReads (n ++ S "() {") [.word n, .attached, .rpar, .word (S "{"), .nl] := by
    intro o
    rw [List.append_assoc, run_append, h, Option.bind_some]
    have hr : run ⟨.word, n, []⟩ (S "() {" ++ ['\n']) = some ⟨.gap, [], [.word n, .attached, .rpar, .word (S "{"), .nl]⟩ := by
      simp [S, run, step, wordStep, gapStep]
    exact run_out hr o
  exact means_line (ts := [.word n, .attached, .rpar, .word (S "{")]) hl rfl (by simp) (by simp [stmt, S])

/-- The statements of a function. -/
def bodyStmts (pre : Str) (stacking : Bool) (parents : List Cmd) (c : Cmd) (f : ZshFunction) : List Stmt :=
  initStmts pre f.init ++ caseStmts pre parents c ++ optionStmts pre stacking f.args

/-- What the text of a function needs in order to be read. -/
structure FunctionOk (pre : Str) (parents : List Cmd) (c : Cmd) (f : ZshFunction) : Prop where
  capture : zshCaptures c = []
  name : IsWord (zshName pre parents c)
  names : ∀ d ∈ c.children, IsWord (zshName pre (parents ++ [c]) d) ∧ '\n' ∉ zshName pre (parents ++ [c]) d
  table : ∀ t, f.init = some t → '\n' ∉ t
  variations : ∀ d ∈ c.children, variations c d ≠ [] ∧ S "esac" ∉ variations c d ∧ ∀ w ∈ variations c d, '\n' ∉ w
  args : ∀ a ∈ f.args, ArgOk a
  specs : ∀ a ∈ f.args, '\n' ∉ a.1.spec

end ZshLex
end CC

namespace CC
namespace ZshLex
open ZshText

/-! ## No line breaks in lines -/

theorem id_break {s : Str} (h : ∀ c ∈ s, idChar c = true) : '\n' ∉ s := by
  intro hm
  exact absurd (h _ hm) (by decide)

theorem joinWith_break {sep : Str} (hs : '\n' ∉ sep) : ∀ (l : List Str), (∀ x ∈ l, '\n' ∉ x) → '\n' ∉ joinWith sep l
  | [], _ => by simp [joinWith]
  | [a], h => by simpa [joinWith] using h a (by simp)
  | a :: b :: r, h => by
    have ih := joinWith_break hs (b :: r) (fun x hx => h x (by simp [hx]))
    simp only [joinWith, List.mem_append, not_or]
    exact ⟨⟨h a (by simp), hs⟩, ih⟩

theorem joinQuoted_break (l : List Str) (h : ∀ x ∈ l, '\n' ∉ x) : '\n' ∉ joinQuoted l := by
  unfold joinQuoted
  apply joinWith_break (by decide)
  intro x hx
  obtain ⟨y, hy, rfl⟩ := List.mem_map.mp hx
  exact quote_break y (h y hy)

theorem natStr_break (n : Nat) : '\n' ∉ natStr n := by
  intro h
  have := natStr_isDigit h
  revert this; decide

theorem intStr_break (n : Int) : '\n' ∉ intStr n := intStr_not (by decide) (by decide)

theorem cond_break {pre : Str} (hp : ∀ c ∈ pre, idChar c = true) (k : Cond) (h : condClean k) : '\n' ∉ k.zshText pre := by
  have hq := id_break (realName_id hp query_id)
  have hm := id_break (realName_id hp match_id)
  have hc := id_break (realName_id hp contains_id)
  cases k with
  | optionIs opts vals nc any =>
    apply joinQuoted_break
    intro x hx
    rcases List.mem_cons.mp hx with rfl | hx
    · exact hq
    · rcases List.mem_cons.mp hx with rfl | hx
      · decide
      · exact queryArgs_break h.1 h.2 x hx
  | optionMatch opts rx nc any =>
    apply joinQuoted_break
    intro x hx
    rcases List.mem_cons.mp hx with rfl | hx
    · exact hm
    · refine queryArgs_break h.1 ?_ x hx
      intro s hs
      rw [List.mem_singleton] at hs
      subst hs
      exact h.2
  | hasOption opts =>
    apply joinQuoted_break
    intro x hx
    rcases List.mem_cons.mp hx with rfl | hx
    · exact hq
    · rcases List.mem_cons.mp hx with rfl | hx
      · decide
      · exact h x hx
  | positionalCount op n =>
    simp only [Cond.zshText, List.mem_append, not_or]
    exact ⟨⟨⟨⟨by decide +kernel, by cases op <;> decide⟩, by decide⟩, intStr_break n⟩, by decide +kernel⟩
  | positionalContains nc n vals =>
    have hv := joinQuoted_break vals h.2
    simp only [Cond.zshText]
    split
    · simp only [List.mem_append, not_or]
      exact ⟨⟨⟨⟨hc, by decide +kernel⟩, intStr_break n⟩, by decide +kernel⟩, lower_break _ hv⟩
    · simp only [List.mem_append, not_or]
      exact ⟨⟨⟨⟨hc, by decide +kernel⟩, intStr_break n⟩, by decide +kernel⟩, hv⟩

theorem whenText_break {pre : Str} (hp : ∀ c ∈ pre, idChar c = true) (ts : List (ShellGrammar.Tok Cond)) (h : ∀ k, .cmd k ∈ ts → condClean k) :
    '\n' ∉ zshWhenText pre ts := by
  have hr : '\n' ∉ joinWith [' '] (ts.map (zshWhenPiece pre)) := by
    apply joinWith_break (by decide)
    intro x hx
    obtain ⟨t, ht, rfl⟩ := List.mem_map.mp hx
    cases t with
    | cmd k => exact cond_break hp k (h k ht)
    | _ => simp only [zshWhenPiece]; decide +kernel
  unfold zshWhenText
  simp only
  split
  · simp only [List.mem_append, not_or]
    exact ⟨⟨by decide +kernel, hr⟩, by decide +kernel⟩
  · exact hr

/-- A line that is not empty and has no line break. -/
def LineOk (l : Str) : Prop := l ≠ [] ∧ '\n' ∉ l

theorem init_ok {pre : Str} (hp : ∀ c ∈ pre, idChar c = true) {o : Option Str} (h : ∀ t, o = some t → '\n' ∉ t) :
    ∀ l ∈ zshInitLines pre o, LineOk l := by
  cases o with
  | none => simp [zshInitLines]
  | some t =>
    intro l hl
    simp only [zshInitLines, List.mem_cons, List.not_mem_nil, or_false] at hl
    rcases hl with rfl | rfl | rfl
    · refine ⟨by simp [S], ?_⟩
      simp only [List.mem_append, not_or]
      exact ⟨by decide +kernel, quote_break t (h t rfl)⟩
    · exact ⟨by simp [S], by decide +kernel⟩
    · refine ⟨by simp [S], ?_⟩
      simp only [List.mem_append, not_or]
      exact ⟨id_break (realName_id hp query_id), by decide +kernel⟩

theorem case_ok {pre : Str} (hp : ∀ c ∈ pre, idChar c = true) (parents : List Cmd) (c : Cmd)
    (hn : ∀ d ∈ c.children, '\n' ∉ zshName pre (parents ++ [c]) d) (hv : ∀ d ∈ c.children, ∀ w ∈ variations c d, '\n' ∉ w) :
    ∀ l ∈ zshCaseLines pre parents c, LineOk l := by
  intro l hl
  unfold zshCaseLines at hl
  cases hs : c.sub with
  | none => rw [hs] at hl; simp at hl
  | some n =>
    rw [hs] at hl
    simp only [List.cons_append, List.mem_cons, List.mem_append, List.not_mem_nil, or_false] at hl
    rcases hl with rfl | hl | rfl
    · refine ⟨by simp [S], ?_⟩
      simp only [List.mem_append, not_or]
      exact ⟨⟨⟨⟨by decide +kernel, id_break (realName_id hp query_id)⟩, by decide +kernel⟩, natStr_break _⟩, by decide +kernel⟩
    · obtain ⟨d, hd, rfl⟩ := List.mem_map.mp hl
      refine ⟨by simp [zshArmLine, S], ?_⟩
      simp only [zshArmLine, List.mem_append, not_or]
      refine ⟨⟨⟨⟨by decide +kernel, ?_⟩, by decide +kernel⟩, hn d hd⟩, by decide +kernel⟩
      apply joinWith_break (by decide)
      intro x hx
      obtain ⟨w, hw, rfl⟩ := List.mem_map.mp hx
      exact quote_break w (hv d hd w hw)
    · exact ⟨by simp [S], by decide +kernel⟩

theorem option_ok {pre : Str} (hp : ∀ c ∈ pre, idChar c = true) (stacking : Bool)
    (args : List (ZshArg × Option (List (ShellGrammar.Tok Cond) × List (ShellGrammar.Tok QueryPrim)))) (h : ∀ a ∈ args, ArgOk a)
    (hs : ∀ a ∈ args, '\n' ∉ a.1.spec) : ∀ l ∈ zshOptionLines pre stacking args, LineOk l := by
  intro l hl
  unfold zshOptionLines at hl
  split at hl
  · simp at hl
  · simp only [List.mem_append, List.mem_singleton] at hl
    rcases hl with (hl | hl) | rfl
    · have hsp : ∀ s ∈ (args.filter (fun a => a.2.isNone)).map (·.1.spec), '\n' ∉ s := by
        intro s hs'
        obtain ⟨a, ha, rfl⟩ := List.mem_map.mp hs'
        exact hs a (List.mem_filter.mp ha).1
      generalize (args.filter (fun a => a.2.isNone)).map (·.1.spec) = specs at hl hsp
      cases specs with
      | nil => simp only [zshPlainLines, List.mem_singleton] at hl; subst hl; exact ⟨by simp [S], by decide +kernel⟩
      | cons s r =>
        simp only [zshPlainLines, List.cons_append, List.mem_cons, List.mem_append, List.not_mem_nil, or_false] at hl
        rcases hl with rfl | hl | rfl
        · exact ⟨by simp [S], by decide +kernel⟩
        · obtain ⟨x, hx, rfl⟩ := List.mem_map.mp hl
          refine ⟨by simp [S], ?_⟩
          simp only [List.mem_append, not_or]
          exact ⟨by decide +kernel, hsp x hx⟩
        · exact ⟨by simp [S], by decide +kernel⟩
    · obtain ⟨a, ha, hx⟩ := List.mem_flatMap.mp hl
      unfold zshArgLines at hx
      cases h2 : a.2 with
      | none => rw [h2] at hx; simp at hx
      | some x =>
        rw [h2] at hx
        simp only [zshWhenLines, List.mem_cons, List.not_mem_nil, or_false] at hx
        rcases hx with rfl | rfl
        · refine ⟨by simp [S], ?_⟩
          simp only [List.mem_append, not_or]
          exact ⟨whenText_break hp _ ((h a ha).cond x h2).2, by decide +kernel⟩
        · refine ⟨by simp [S], ?_⟩
          simp only [List.mem_append, not_or]
          exact ⟨⟨by decide +kernel, hs a ha⟩, by decide +kernel⟩
    · unfold zshArgumentsLine
      split
      · exact ⟨by simp [S], by decide +kernel⟩
      · exact ⟨by simp [S], by decide +kernel⟩

/-! ## The text of a function and of the file -/

theorem function_lines {pre : Str} (hp : ∀ c ∈ pre, idChar c = true) (stacking : Bool) {parents : List Cmd} {c : Cmd} {f : ZshFunction}
    (h : FunctionOk pre parents c f) :
    ∃ ls, zshFunctionText pre stacking parents c f = joinWith ['\n'] (ls ++ [S "}"]) ∧ ls ≠ [] ∧
      Means ls (.opening (zshName pre parents c) :: bodyStmts pre stacking parents c f) := by
  obtain ⟨L, hne, hbr, hm, hj⟩ := body_lines
    [(zshInitLines pre f.init, initStmts pre f.init), (zshCaptureLines pre c, []), (zshCaseLines pre parents c, caseStmts pre parents c),
      (zshOptionLines pre stacking f.args, optionStmts pre stacking f.args)] (by
    have hcap : zshCaptureLines pre c = [] := by unfold zshCaptureLines; rw [h.capture]
    intro p hp'
    simp only [List.mem_cons, List.not_mem_nil, or_false] at hp'
    rcases hp' with rfl | rfl | rfl | rfl
    · refine ⟨means_init hp h.table, ?_, init_ok hp h.table⟩
      intro e
      cases hi : f.init with
      | none => simp [initStmts]
      | some t => simp [hi, zshInitLines] at e
    · simp only [hcap]; exact ⟨means_nil, fun _ => trivial, by simp⟩
    · refine ⟨means_case hp parents c (fun d hd => (h.names d hd).1) h.variations, ?_, case_ok hp parents c (fun d hd => (h.names d hd).2)
        (fun d hd => (h.variations d hd).2.2)⟩
      intro e
      simp only [zshCaseLines] at e
      simp only [caseStmts]
      cases hs : c.sub with
      | none => rfl
      | some n => simp [hs] at e
    · refine ⟨means_options hp stacking f.args h.args, ?_, option_ok hp stacking f.args h.args h.specs⟩
      intro e
      simp only [zshOptionLines] at e
      simp only [optionStmts]
      split at e
      · rename_i he; rw [if_pos he]
      · simp at e)
  refine ⟨(zshName pre parents c ++ S "() {") :: L.map pad, ?_, by simp, ?_⟩
  · unfold zshFunctionText zshParts
    simp only [List.map_cons, List.map_nil] at hj ⊢
    rw [hj, indent_lines L hne hbr]
    rw [List.cons_append, join_cons _ _ (by simp), join_snoc _ _ (by simpa using hne)]
    simp [S]
  · have h1 := means_append (means_opening h.name) (means_spaces pad_spaces hm)
    simpa [bodyStmts] using h1

/-- A function and what is read from its text. -/
def funEntry (pre : Str) (stacking : Bool) (e : (List Cmd × Cmd) × ZshFunction) : Str × List Stmt :=
  (zshName pre e.1.1 e.1.2, bodyStmts pre stacking e.1.1 e.1.2 e.2)

theorem file_lines {pre : Str} (hp : ∀ c ∈ pre, idChar c = true) (stacking : Bool) :
    ∀ (fs : List ((List Cmd × Cmd) × ZshFunction)), fs ≠ [] → (∀ e ∈ fs, FunctionOk pre e.1.1 e.1.2 e.2) →
    ∃ ls ss, joinWith ['\n', '\n'] (fs.map (fun e => zshFunctionText pre stacking e.1.1 e.1.2 e.2)) = joinWith ['\n'] (ls ++ [S "}"]) ∧ Means ls ss ∧
      ls ≠ [] ∧
      ss ++ [.closing] = fs.flatMap (fun e => .opening (funEntry pre stacking e).1 :: (funEntry pre stacking e).2 ++ [.closing])
  | [], h, _ => absurd rfl h
  | [e], _, h => by
    obtain ⟨ls, h1, h2, h3⟩ := function_lines hp stacking (h e (by simp))
    exact ⟨ls, _, by simpa [joinWith] using h1, h3, h2, by simp [funEntry]⟩
  | e :: g :: r, _, h => by
    obtain ⟨ls, h1, h2, h3⟩ := function_lines hp stacking (h e (by simp))
    obtain ⟨ks, ss, k1, k2, k3, k4⟩ := file_lines hp stacking (g :: r) (by simp) (fun x hx => h x (by simp [hx]))
    have hclose : Means [S "}"] [.closing] := means_reads (ts := [.word (S "}")]) (reads_word (isWord_of rfl)) (pass_words 0 [_]) (by simp) rfl
    refine ⟨(ls ++ [S "}"]) ++ [[]] ++ ks, _, ?_, means_append (means_append (means_append h3 hclose) means_blank) k2, by simp, ?_⟩
    · have := join_sections [ls ++ [S "}"], ks ++ [S "}"]] (by simp) (by simp)
      simp only [List.map_cons, List.map_nil, joinWith, sections] at this
      simp only [List.map_cons, joinWith] at k1 ⊢
      rw [h1, k1, this]
      simp
    · rw [List.flatMap_cons, ← k4]
      simp [funEntry]

theorem functions_body (n : Str) (r : List Stmt) (body : List Stmt) (hb : ∀ s ∈ body, s ≠ .closing ∧ ∀ m, s ≠ .opening m) :
    ∀ b, functions (some (n, b)) (body ++ .closing :: r) = (functions none r).map ((n, b ++ body) :: ·) := by
  induction body with
  | nil => intro b; simp [functions]
  | cons s q ih =>
    intro b
    have hs := hb s (by simp)
    have := ih (fun x hx => hb x (by simp [hx])) (b ++ [s])
    rw [List.append_assoc] at this
    cases s with
    | closing => exact absurd rfl hs.1
    | opening m => exact absurd rfl (hs.2 m)
    | _ => simpa only [List.cons_append, List.nil_append, functions] using this

theorem functions_all (es : List (Str × List Stmt)) (h : ∀ e ∈ es, ∀ s ∈ e.2, s ≠ .closing ∧ ∀ m, s ≠ .opening m) :
    functions none (es.flatMap (fun e => .opening e.1 :: e.2 ++ [.closing])) = some es := by
  induction es with
  | nil => rfl
  | cons e r ih =>
    have ih := ih (fun x hx => h x (by simp [hx]))
    rw [List.flatMap_cons]
    simp only [List.cons_append, List.append_assoc, List.nil_append, functions] at ih ⊢
    rw [functions_body _ _ _ (h e (by simp)), ih]
    rfl

theorem body_inner (pre : Str) (stacking : Bool) (parents : List Cmd) (c : Cmd) (f : ZshFunction) :
    ∀ s ∈ bodyStmts pre stacking parents c f, s ≠ .closing ∧ ∀ m, s ≠ .opening m := by
  intro s hs
  unfold bodyStmts at hs
  simp only [List.mem_append] at hs
  rcases hs with (hs | hs) | hs
  · cases hi : f.init with
    | none => rw [hi] at hs; simp [initStmts] at hs
    | some t =>
      rw [hi] at hs
      simp only [initStmts, List.mem_cons, List.not_mem_nil, or_false] at hs
      rcases hs with rfl | rfl | rfl <;> simp
  · unfold caseStmts at hs
    split at hs
    · simp at hs
    · simp only [List.cons_append, List.mem_cons, List.mem_append, List.not_mem_nil, or_false] at hs
      rcases hs with rfl | hs | rfl
      · simp
      · obtain ⟨d, -, rfl⟩ := List.mem_map.mp hs; simp
      · simp
  · unfold optionStmts at hs
    split at hs
    · simp at hs
    · simp only [List.cons_append, List.mem_cons, List.mem_append, List.not_mem_nil, or_false] at hs
      rcases hs with rfl | hs | rfl
      · simp
      · obtain ⟨a, -, hx⟩ := List.mem_flatMap.mp hs
        unfold argStmts at hx
        split at hx
        · simp only [List.mem_singleton] at hx; subst hx; simp [whenStmt]
        · simp at hx
      · simp

theorem functionText_ne (pre : Str) (stacking : Bool) (parents : List Cmd) (c : Cmd) (f : ZshFunction) :
    zshFunctionText pre stacking parents c f ≠ [] := by simp [zshFunctionText, S]

/-- Zsh reads the text of the file as the functions. -/
theorem read_file {pre : Str} (hp : ∀ c ∈ pre, idChar c = true) (stacking : Bool) (fs : List ((List Cmd × Cmd) × ZshFunction)) (hne : fs ≠ [])
    (h : ∀ e ∈ fs, FunctionOk pre e.1.1 e.1.2 e.2) :
    ZshText.read (outputGet (fs.map (fun e => zshFunctionText pre stacking e.1.1 e.1.2 e.2))) = some (fs.map (funEntry pre stacking)) := by
  obtain ⟨ls, ss, h1, h2, h3, h4⟩ := file_lines hp stacking fs hne h
  have hf : (fs.map (fun e => zshFunctionText pre stacking e.1.1 e.1.2 e.2)).filter (fun s => !s.isEmpty) =
      fs.map (fun e => zshFunctionText pre stacking e.1.1 e.1.2 e.2) := by
    rw [List.filter_eq_self]
    intro s hs
    obtain ⟨e, -, rfl⟩ := List.mem_map.mp hs
    have := functionText_ne pre stacking e.1.1 e.1.2 e.2
    simpa using this
  unfold outputGet
  rw [hf, h1, read_lines h2 (isWord_of rfl) (s := .closing) rfl, h4]
  have := functions_all (fs.map (funEntry pre stacking)) (by
    intro e he
    obtain ⟨x, -, rfl⟩ := List.mem_map.mp he
    exact body_inner pre stacking _ _ _)
  rw [List.flatMap_map] at this
  exact this

end ZshLex
end CC
