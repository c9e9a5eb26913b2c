import Verif.Lemmas.BashOffersRun
import Verif.Lemmas.KernelRfl
/-!
# Lemmas: what a line of the code that offers option strings does
-/

namespace CC
namespace OffersLex
open ShellGrammar (Expr DenotesAt Denotes)
open FishReads (mapTok)
open BashText (isName nameChar spanName between)
open BashOffers

/-! ## Lines -/

/-- The text of a condition has this value; no text is true. -/
def Value (pre : Str) (rx : Bool → Str → Str → Bool) (env : Env) (t : Str) (b : Bool) : Prop :=
  (t = [] ∧ b = true) ∨ (t ≠ [] ∧ '\n' ∉ t ∧ ∃ toks e, ZshLex.Reads t (toks.flatMap (pieceOf (osSimple pre))) ∧ Denotes toks e ∧
    (∀ k, .cmd k ∈ toks → osGood k) ∧ e.eval (OSPrim.succeeds rx (stateOf env)) = b)

/-- The line, with blanks in front of it, is a list of commands that adds these words to `opts`. -/
def LineAdds (env : Env) (l : Str) (ws : List Str) : Prop :=
  ∀ n, trimmed (List.replicate n ' ' ++ l) ≠ [] ∧ ∃ ts e, readLine (List.replicate n ' ' ++ l) = some (.list ts) ∧ ShellGrammar.parse ts = some e ∧
    ∀ s, ∃ b, exec env s e = some (b, { s with opts := s.opts ++ ws })

/-- The line of a condition and of words. -/
def condLineText (t : Str) (ws : List Str) : Str :=
  if t.isEmpty then S "opts+=(" ++ joinQuoted ws ++ S ")" else t ++ S " && " ++ (S "opts+=(" ++ joinQuoted ws ++ S ")")

theorem trimmed_snoc (l : Str) : ∃ r, trimmed (l ++ [')']) = r ++ [')'] := by
  induction l with
  | nil => exact ⟨[], rfl⟩
  | cons c l ih =>
    unfold trimmed at ih ⊢
    by_cases hc : (c == ' ') = true
    · rw [List.cons_append, List.dropWhile_cons, if_pos hc]; exact ih
    · rw [List.cons_append, List.dropWhile_cons, if_neg hc]; exact ⟨c :: l, rfl⟩

theorem run_spaces (n : Nat) (t : Str) : ZshText.run {} (List.replicate n ' ' ++ t) = ZshText.run {} t := by
  induction n with
  | zero => rfl
  | succ n ih =>
    show ZshText.run _ (' ' :: (List.replicate n ' ' ++ t)) = _
    rw [ZshLex.run_cons]
    simp only [ZshText.step, ZshLex.gapStep_space, Option.bind_some]
    exact ih

theorem readList_spaces (n : Nat) (t : Str) : readList (List.replicate n ' ' ++ t) = readList t := by
  unfold readList ZshText.tokens
  rw [run_spaces]

theorem trimmed_eq (l : Str) : ∃ n, l = List.replicate n ' ' ++ trimmed l := by
  induction l with
  | nil => exact ⟨0, rfl⟩
  | cons c l ih =>
    unfold trimmed at ih ⊢
    by_cases hc : (c == ' ') = true
    · rw [List.dropWhile_cons, if_pos hc]
      obtain ⟨n, hn⟩ := ih
      refine ⟨n + 1, ?_⟩
      have : c = ' ' := by simpa using hc
      rw [this, List.replicate_succ, List.cons_append, ← hn]
    · rw [List.dropWhile_cons, if_neg hc]; exact ⟨0, rfl⟩

/-- A line that ends with a parenthesis and can be read as a list is one. -/
theorem readLine_list {l : Str} {ts : List (ShellGrammar.Tok ZshText.Simple)} (h : readList (l ++ [')']) = some ts) :
    readLine (l ++ [')']) = some (.list ts) := by
  obtain ⟨r, hr⟩ := trimmed_snoc l
  have hl : ∀ t : Str, t.getLast? ≠ some ')' → ¬ trimmed (l ++ [')']) = t := by
    rintro t ht rfl
    rw [hr] at ht
    simp at ht
  have hc : ¬ trimmed (l ++ [')']) = "COMPREPLY+=($(compgen -W \"${opts[*]}\" -- \"$cur\"))".toList := by
    intro e
    obtain ⟨n, hn⟩ := trimmed_eq (l ++ [')'])
    rw [e] at hn
    rw [hn, readList_spaces] at h
    have : readList "COMPREPLY+=($(compgen -W \"${opts[*]}\" -- \"$cur\"))".toList = none := by decide +kernel
    rw [this] at h
    cases h
  have hb : between "if ((".toList ")); then".toList (trimmed (l ++ [')'])) = none := by
    cases hx : between "if ((".toList ")); then".toList (trimmed (l ++ [')'])) with
    | none => rfl
    | some u =>
      exfalso
      unfold between BashText.without at hx
      split at hx
      · rw [Option.bind_some] at hx
        split at hx
        · rename_i h1 h2
          rw [List.isSuffixOf_iff_suffix] at h2
          obtain ⟨y, hy⟩ := h2.trans (List.drop_suffix _ _)
          have := congrArg List.getLast? hy
          rw [hr] at this
          rw [List.getLast?_append, List.getLast?_append] at this
          simp at this
        · cases hx
      · cases hx
  unfold readLine
  simp only
  rw [if_neg (hl "if (( ! END_OF_OPTIONS )) && [[ \"$cur\" = -* ]]; then".toList (by decide +kernel)), if_neg (hl "local -a opts".toList (by decide +kernel)),
    if_neg hc, if_neg (hl "[[ ${COMPREPLY-} == *= ]] && compopt -o nospace".toList (by decide +kernel)), if_neg (hl "return 1".toList (by decide +kernel)),
    if_neg (hl "fi".toList (by decide +kernel)), hb]
  simp only [h, Option.map_some]

/-- The tokens of the array. -/
def arrayToks (ws : List Str) : List ZshText.Tok := .word (S "opts+=") :: .attached :: ws.map (fun w => .word (quote w)) ++ [.rpar]

theorem run_array (ws : List Str) (h : ∀ w ∈ ws, '\n' ∉ w) (o : List ZshText.Tok) :
    ZshText.run ⟨.gap, [], o⟩ (S "opts+=(" ++ joinQuoted ws ++ S ")") = some ⟨.gap, [], o ++ arrayToks ws⟩ := by
  have h1 : ZshText.run ⟨.gap, [], o⟩ (S "opts+=(") = some ⟨.gap, [], o ++ [.word (S "opts+="), .attached]⟩ := by
    exact ZshLex.run_out (m := .gap) (w := []) (ts := [.word (S "opts+="), .attached]) rfl o
  rw [List.append_assoc, ZshLex.run_append, h1, Option.bind_some]
  by_cases hw : ws = []
  · subst hw
    simp [joinQuoted, joinWith, S, ZshText.run, ZshText.step, ZshText.gapStep, arrayToks]
  · rw [show S ")" = [')'] from rfl, ZshLex.reads_joinQuoted ws hw h _ ')' (by simp)]
    simp [ZshText.gapStep, arrayToks]

theorem scan_array (ws : List Str) : ZshText.scan .start (arrayToks ws) = some ([.cmd (.append (S "opts+=") (ws.map (fun w => quote w)))], .closed) := by
  unfold arrayToks
  simp only [List.cons_append, ZshText.scan]
  rw [if_neg (show ¬ S "opts+=" = "!".toList by decide), if_neg (show ¬ S "opts+=" = "{".toList by decide), if_neg (show ¬ S "opts+=" = "}".toList by decide)]
  have e : ws.map (fun w => ZshText.Tok.word (quote w)) = (ws.map (fun w => quote w)).map .word := by simp
  rw [e, ZshLex.scan_elements]
  simp [ZshText.scan]

theorem exec_array (env : Env) (s : State) (ws : List Str) :
    exec env s (.atom (.append (S "opts+=") (ws.map (fun w => quote w)))) = some (true, { s with opts := s.opts ++ ws }) := by
  rw [exec, simple, if_pos (show S "opts+=" = "opts+=".toList from rfl), expandAll_quoted]
  rfl

theorem line_adds {pre : Str} (hp : ∀ c ∈ pre, ZshLex.idChar c = true) {rx : Bool → Str → Str → Bool} {env : Env} (henv : env.call = bashHelperCall pre rx)
    {t : Str} {b : Bool} (h : Value pre rx env t b) (ws : List Str) (hw : ∀ w ∈ ws, '\n' ∉ w) :
    LineAdds env (condLineText t ws) (if b then ws else []) := by
  intro n
  have hlast : ∃ l, List.replicate n ' ' ++ condLineText t ws = l ++ [')'] := by
    unfold condLineText
    split
    · exact ⟨List.replicate n ' ' ++ (S "opts+=(" ++ joinQuoted ws), by simp [S]⟩
    · exact ⟨List.replicate n ' ' ++ (t ++ S " && " ++ (S "opts+=(" ++ joinQuoted ws)), by simp [S]⟩
  obtain ⟨l, hl⟩ := hlast
  refine ⟨by rw [hl]; obtain ⟨r, hr⟩ := trimmed_snoc l; rw [hr]; simp, ?_⟩
  rcases h with ⟨rfl, rfl⟩ | ⟨hne, -, toks, e, hr, hd, hg, rfl⟩
  · have hrl : readList (List.replicate n ' ' ++ condLineText [] ws) = some [.cmd (.append (S "opts+=") (ws.map (fun w => quote w)))] := by
      rw [readList_spaces]
      unfold readList ZshText.tokens
      rw [show condLineText [] ws = S "opts+=(" ++ joinQuoted ws ++ S ")" from rfl]
      have h0 : ZshText.run {} (S "opts+=(" ++ joinQuoted ws ++ S ")") = _ := run_array ws hw []
      rw [h0]
      simp only [Option.bind_some, ZshText.finish, List.nil_append, scan_array, ZshText.scanEnd, Option.map_some, List.append_nil]
    refine ⟨_, .atom (.append (S "opts+=") (ws.map (fun w => quote w))), by rw [hl] at hrl ⊢; exact readLine_list hrl,
      ShellGrammar.parse_complete (.pipe (.cmd _)), ?_⟩
    intro s
    exact ⟨true, by rw [exec_array]; simp⟩
  · have hrl : readList (List.replicate n ' ' ++ condLineText t ws) =
        some (toks.map (mapTok (osSimple pre)) ++ [.and, .cmd (.append (S "opts+=") (ws.map (fun w => quote w)))]) := by
      rw [readList_spaces]
      unfold readList ZshText.tokens
      have e1 : condLineText t ws = (t ++ [' ']) ++ (S "&& " ++ (S "opts+=(" ++ joinQuoted ws ++ S ")")) := by
        unfold condLineText
        rw [if_neg (by simpa using hne)]
        simp [S]
      rw [e1, ZshLex.run_append]
      have h0 : ZshText.run {} (t ++ [' ']) = some ⟨.gap, [], toks.flatMap (pieceOf (osSimple pre))⟩ := by
        have := hr [] ' ' (by simp)
        rw [ZshLex.gapStep_space] at this
        exact this
      have h1 : ∀ o, ZshText.run ⟨.gap, [], o⟩ (S "&& ") = some ⟨.gap, [], o ++ [.and]⟩ := fun o =>
        ZshLex.run_out (m := .gap) (w := []) (ts := [.and]) rfl o
      rw [h0, Option.bind_some, ZshLex.run_append, h1, Option.bind_some, run_array ws hw]
      simp only [Option.bind_some, ZshText.finish, List.append_assoc, List.cons_append, List.nil_append]
      rw [(scan_pieces (osSimple pre) (osSimple_plain pre) (arrayToks ws) toks).1 (ZshLex.denotes_alternates hd), scan_array]
      simp [ZshText.scanEnd]
    have hd2 : Denotes (toks.map (mapTok (osSimple pre)) ++ [.and, .cmd (.append (S "opts+=") (ws.map (fun w => quote w)))]) _ :=
      .and (ZshLex.denotes_map (osSimple pre) hd) (.cmd _)
    refine ⟨_, _, by rw [hl] at hrl ⊢; exact readLine_list hrl, ShellGrammar.parse_complete hd2, ?_⟩
    intro s
    rw [exec, exec_mapped env s (osSimple pre) (OSPrim.succeeds rx (stateOf env)) hd (fun k hk => simple_prim hp rx env henv s k (hg k hk)), Option.bind_some]
    cases e.eval (OSPrim.succeeds rx (stateOf env)) with
    | true => exact ⟨true, by simp only [if_true]; exact exec_array env s ws⟩
    | false => exact ⟨false, by simp⟩

/-- A text has one value. -/
theorem value_unique {pre : Str} (hp : ∀ c ∈ pre, ZshLex.idChar c = true) {rx : Bool → Str → Str → Bool} {env : Env} (henv : env.call = bashHelperCall pre rx)
    {t : Str} {a b : Bool} (h1 : Value pre rx env t a) (h2 : Value pre rx env t b) : a = b := by
  obtain ⟨-, ts, e, r1, p1, x1⟩ := line_adds hp henv h1 [['x']] (by decide) 0
  obtain ⟨-, ts', e', r2, p2, x2⟩ := line_adds hp henv h2 [['x']] (by decide) 0
  rw [r1] at r2
  cases r2
  rw [p1] at p2
  cases p2
  obtain ⟨c, hc⟩ := x1 {}
  obtain ⟨d, hd⟩ := x2 {}
  rw [hc] at hd
  simp only [Option.some.injEq, Prod.mk.injEq, State.mk.injEq] at hd
  have := hd.2.1
  cases a <;> cases b <;> simp_all

end OffersLex
end CC
