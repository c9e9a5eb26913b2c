import Verif.Lemmas.FishBlocks
/-!
# Lemmas: the first and the last block of the generated Fish script, and when its entries are active
-/

namespace CC
namespace FishReads
open FishCode
open ShellGrammar (Tok)

/-- A word of characters that need no quotes. -/
def Plain (s : Str) : Prop := s ≠ [] ∧ ∀ c ∈ s, isSafeChar c = true

theorem plain_reads {vars : List (Str × Str)} {s : Str} (h : Plain s) : Reads vars s s := reads_safe vars s h.1 h.2

theorem realName_plain {pre f : Str} (hp : ∀ c ∈ pre, isSafeChar c = true) (hf : ∀ c ∈ f, isSafeChar c = true) : Plain (realName pre f) := by
  refine ⟨by unfold realName; simp [S], ?_⟩
  intro c hc
  unfold realName at hc
  rcases List.mem_append.mp hc with hc | hc
  · rcases List.mem_append.mp hc with hc | hc
    · exact hp c hc
    · have : ∀ c ∈ S "__", isSafeChar c = true := by decide
      exact this c hc
  · exact hf c hc

theorem safe_not_quote {s : Str} (h : ∀ c ∈ s, isSafeChar c = true) : '\'' ∉ s := by
  intro hm
  have := h _ hm
  revert this; decide

theorem no_backslash_harmless : ∀ {s : Str}, '\\' ∉ s → backslashHarmless s = true
  | [], _ => by simp [backslashHarmless]
  | c :: cs, h => by
    simp only [List.mem_cons, not_or] at h
    have hc : ¬ c = '\\' := fun e => h.1 e.symm
    unfold backslashHarmless
    split
    · rfl
    · rename_i heq; simp only [List.cons.injEq] at heq; exact absurd heq.1 hc
    · rename_i heq; simp only [List.cons.injEq] at heq; exact absurd heq.1 hc
    · rename_i heq; simp only [List.cons.injEq] at heq; rw [← heq.2]; exact no_backslash_harmless h.2

theorem safe_no_backslash {s : Str} (h : ∀ c ∈ s, isSafeChar c = true) : '\\' ∉ s := by
  intro hm
  have := h _ hm
  revert this; decide

theorem function_safe : ∀ f ∈ scriptFunctions, f ≠ [] ∧ (∀ c ∈ f, isSafeChar c = true) := by decide

theorem variable_mem (p : FishPrim) : p.variable ∈ scriptFunctions := by
  cases p with
  | prim q => cases q <;> simp [FishPrim.variable, scriptFunctions]
  | hidden os => simp [FishPrim.variable, scriptFunctions]

theorem set_functions {pre : Str} (hp : ∀ c ∈ pre, isSafeChar c = true) : ∀ (fs : List Str), (∀ f ∈ fs, f ∈ scriptFunctions) →
    ∀ a : FishRun.State, ∃ vars, Effects (fs.map (fun f => S "set -l " ++ f ++ S " '" ++ realName pre f ++ S "'")) a { a with vars } ∧
      (∀ n, n ∉ fs → FishRun.value vars n = FishRun.value a.vars n) ∧ ∀ f ∈ fs, FishRun.value vars f = some (realName pre f)
  | [], _, a => ⟨a.vars, .nil a, fun _ _ => rfl, by simp⟩
  | f :: fs, h, a => by
    have hs := function_safe f (h f (by simp))
    have hpl := realName_plain hp hs.2
    obtain ⟨vars, h1, h2, h3⟩ := set_functions hp fs (fun g hg => h g (by simp [hg])) { a with vars := (f, realName pre f) :: a.vars }
    refine ⟨vars, ?_, ?_, ?_⟩
    · rw [List.map_cons]
      refine .cons ?_ h1
      have := effect_set (a := a) hs.1 hs.2 (reads_sq a.vars (realName pre f) (safe_not_quote hpl.2)
        (no_backslash_harmless (safe_no_backslash hpl.2)))
      simpa [S, List.append_assoc] using this
    · intro n hn
      simp only [List.mem_cons, not_or] at hn
      rw [h2 n hn.2]
      show FishRun.value ((f, _) :: a.vars) n = _
      rw [value_cons, if_neg (fun e => hn.1 e.symm)]
    · intro g hg
      by_cases hm : g ∈ fs
      · exact h3 g hm
      · rcases List.mem_cons.mp hg with rfl | hg
        · rw [h2 g hm]
          show FishRun.value ((g, _) :: a.vars) g = _
          rw [value_cons, if_pos rfl]
        · exact absurd hg hm

/-- The entry for the whole program: no files are offered, and what the other entries offer is needed. -/
def exclusiveEntry (prog : Str) : FishRun.Entry := { command := prog, requires := true, noFiles := true }

/-- The entries of a program are erased. -/
def without (prog : Str) (es : List FishRun.Entry) : List FishRun.Entry := es.filter (fun e => decide (e.command ≠ prog))

theorem head_effect {pre prog : Str} (hp : ∀ c ∈ pre, isSafeChar c = true) (h1 : '\'' ∉ prog) (h2 : backslashHarmless prog = true)
    (used : Str → Bool) (a : FishRun.State) :
    ∃ vars, Effect (joinWith ['\n'] (fishHead pre prog used)) a
        { vars, entries := without prog a.entries ++ [exclusiveEntry prog], wraps := a.wraps } ∧
      Env prog pre (scriptFunctions.filter used) vars := by
  have hprep : Plain (realName pre (S "prepare")) := realName_plain hp (by decide)
  obtain ⟨vars, f1, f2, f3⟩ := set_functions hp (scriptFunctions.filter used) (fun f hf => (List.mem_filter.mp hf).1)
    { a with vars := (S "P", realName pre (S "prepare")) :: (S "prog", prog) :: a.vars }
  have hP : S "P" ∉ scriptFunctions.filter used := fun h => by have := (List.mem_filter.mp h).1; revert this; decide
  have hprog : S "prog" ∉ scriptFunctions.filter used := fun h => by have := (List.mem_filter.mp h).1; revert this; decide
  have env : Env prog pre (scriptFunctions.filter used) vars := by
    refine ⟨?_, ?_, f3⟩
    · rw [f2 _ hprog]
      show FishRun.value ((S "P", _) :: (S "prog", prog) :: a.vars) _ = _
      rw [value_cons, if_neg (by decide), value_cons, if_pos rfl]
    · rw [f2 _ hP]
      show FishRun.value ((S "P", _) :: (S "prog", prog) :: a.vars) _ = _
      rw [value_cons, if_pos rfl]
  refine ⟨vars, ?_, env⟩
  apply Effects.joined
  unfold fishHead
  refine effects_append (b := { a with vars }) (effects_append (b := { a with vars := (S "P", realName pre (S "prepare")) :: (S "prog", prog) :: a.vars }) ?_ f1) ?_
  · refine .cons (b := { a with vars := (S "prog", prog) :: a.vars }) ?_ (.cons ?_ (.nil _))
    · have := effect_set (a := a) (v := S "prog") (by decide) (by decide) (reads_sq a.vars prog h1 h2)
      simpa [S, List.append_assoc] using this
    · have := effect_set (a := { a with vars := (S "prog", prog) :: a.vars }) (v := S "P") (by decide) (by decide)
        (reads_sq _ (realName pre (S "prepare")) (safe_not_quote hprep.2) (no_backslash_harmless (safe_no_backslash hprep.2)))
      simpa [S, List.append_assoc] using this
  · have rprog : ∀ st : FishRun.State, st.vars = vars → Reads st.vars (S "$prog") prog := by
      intro st h
      rw [h]
      exact reads_name (n := S "prog") (by decide) (by decide) env.prog
    refine .cons (effect_nil _) (.comment (by decide) (by simp) (.cons (b := { vars, entries := without prog a.entries, wraps := a.wraps }) ?_
      (.cons (effect_nil _) (.comment (by decide) (by simp) (.cons ?_ (.nil _))))))
    · show Effect (joinWith [' '] (S "complete" :: [S "-c", S "$prog", S "-e"])) _ _
      refine effect_complete (xs := [S "-c", prog, S "-e"]) ?_ rfl
      exact .cons (reads_safe _ _ (by decide) (by decide)) (.cons (rprog _ rfl) (.cons (reads_safe _ _ (by decide) (by decide)) .nil))
    · show Effect (joinWith [' '] (S "complete" :: [S "-c", S "$prog", S "-x"])) _ _
      refine effect_complete (xs := [S "-c", prog, S "-x"]) ?_ rfl
      exact .cons (reads_safe _ _ (by decide) (by decide)) (.cons (rprog _ rfl) (.cons (reads_safe _ _ (by decide) (by decide)) .nil))

/-- Which commands the program is completed like. -/
def wrapsOf (prog : Str) : Option Str → List (Str × Str)
  | some w => if w.isEmpty then [] else [(prog, w)]
  | none => []

theorem wraps_effect {prog : Str} {w : Option Str} (hw : ∀ s, w = some s → ∀ c ∈ s, isSafeChar c = true) {a : FishRun.State}
    (hprog : FishRun.value a.vars (S "prog") = some prog) :
    Effect (joinWith ['\n'] (fishWraps w)) a { a with wraps := a.wraps ++ wrapsOf prog w } := by
  cases w with
  | none => simpa [fishWraps, wrapsOf, joinWith] using effect_nil a
  | some s =>
    by_cases hs : s.isEmpty = true
    · simpa [fishWraps, wrapsOf, joinWith, hs] using effect_nil a
    · have hp : Plain s := ⟨by simpa using hs, hw s rfl⟩
      unfold fishWraps wrapsOf
      simp only [hs, Bool.false_eq_true, if_false]
      apply Effects.joined
      refine .comment (by decide) (by simp) (.cons ?_ (.nil _))
      have e : S "complete -c $prog -w " ++ s = joinWith [' '] (S "complete" :: [S "-c", S "$prog", S "-w", s]) := by
        simp [joinWith, S]
      rw [e]
      refine effect_complete (xs := [S "-c", prog, S "-w", s]) ?_ rfl
      exact .cons (reads_safe _ _ (by decide) (by decide)) (.cons (reads_name (n := S "prog") (by decide) (by decide) hprog)
        (.cons (reads_safe _ _ (by decide) (by decide)) (.cons (plain_reads hp) .nil)))

theorem aliases_effect {prog : Str} : ∀ (aliases : List Str), (aliases ≠ [] → Plain prog) → (∀ x ∈ aliases, Plain x) → ∀ a : FishRun.State,
    Effects (fishAliases prog aliases) a
      { a with entries := a.entries.filter (fun e => decide (e.command ∉ aliases)), wraps := a.wraps ++ aliases.map (fun x => (x, prog)) }
  | [], _, _, a => by
    have : fishAliases prog [] = [] := rfl
    rw [this]
    have e : a.entries.filter (fun e => decide (e.command ∉ ([] : List Str))) = a.entries := by simp
    rw [e]
    simpa using Effects.nil a
  | x :: xs, hp, h, a => by
    have hpr := hp (by simp)
    have hx := h x (by simp)
    have e : fishAliases prog (x :: xs) = joinWith [' '] (S "complete" :: [S "-c", x, S "-e"]) ::
        joinWith [' '] (S "complete" :: [S "-c", x, S "-w", prog]) :: fishAliases prog xs := by
      simp [fishAliases, joinWith, S]
    rw [e]
    have ih := aliases_effect xs (fun _ => hpr) (fun y hy => h y (by simp [hy]))
      { a with entries := without x a.entries, wraps := a.wraps ++ [(x, prog)] }
    refine .cons (b := { a with entries := without x a.entries }) ?_ (.cons (b := { a with entries := without x a.entries, wraps := a.wraps ++ [(x, prog)] }) ?_ ?_)
    · refine effect_complete (xs := [S "-c", x, S "-e"]) ?_ rfl
      exact .cons (reads_safe _ _ (by decide) (by decide)) (.cons (plain_reads hx) (.cons (reads_safe _ _ (by decide) (by decide)) .nil))
    · refine effect_complete (xs := [S "-c", x, S "-w", prog]) ?_ rfl
      exact .cons (reads_safe _ _ (by decide) (by decide)) (.cons (plain_reads hx) (.cons (reads_safe _ _ (by decide) (by decide))
        (.cons (plain_reads hpr) .nil)))
    · have e1 : (without x a.entries).filter (fun e => decide (e.command ∉ xs)) = a.entries.filter (fun e => decide (e.command ∉ x :: xs)) := by
        unfold without
        rw [List.filter_filter]
        congr 1
        funext e
        by_cases h1 : e.command = x <;> by_cases h2 : e.command ∈ xs <;> simp [h1, h2]
      rw [e1] at ih
      simpa [List.append_assoc] using ih

/-! ## When an entry is active -/

theorem succeeds_name {n : Str} (hn : Plain n) (hk : ¬ isKeyword n) (v : List Str → Bool) : FishRun.Succeeds v n ↔ v [n] = true := by
  have hr : FishCode.read n = some [[.word (n.map .ch)]] := (stmts_of_words (words_safe n hn.1 hn.2) rfl).read
  simp only [isKeyword, not_or] at hk
  have ht : FishRun.conditionTokens [[.word (n.map .ch)]] = some [.cmd [n]] := by
    simp only [FishRun.conditionTokens, FishRun.conditionStmt, literal_map, hk.1, hk.2.1, hk.2.2.1, hk.2.2.2, bind, Option.bind_some,
      or_self, if_false, List.append_nil]
  constructor
  · rintro ⟨ss, ts, h1, h2, h3⟩
    rw [hr] at h1; cases h1
    rw [ht] at h2; cases h2
    simpa [ShellGrammar.run, ShellGrammar.parse, ShellGrammar.parseGo, ShellGrammar.Frame.close, ShellGrammar.negate, ShellGrammar.Expr.eval] using h3
  · intro h
    refine ⟨_, _, hr, ht, ?_⟩
    simpa [ShellGrammar.run, ShellGrammar.parse, ShellGrammar.parseGo, ShellGrammar.Frame.close, ShellGrammar.negate, ShellGrammar.Expr.eval] using h

theorem realName_not_keyword (pre : Str) (f : Str) : ¬ isKeyword (realName pre f) := by
  have h : '_' ∈ realName pre f := by unfold realName; simp [S]
  unfold isKeyword
  simp only [not_or]
  refine ⟨?_, ?_, ?_, ?_⟩ <;> intro e <;> rw [e] at h <;> revert h <;> decide

/-- The texts of the tokens of a definition can be read as an expression. -/
def WhenReads (d : FishDef) : Prop := d.when_ = [] ∨ ∃ e, ShellGrammar.Denotes d.when_ e

theorem code_alternates (c : FishCond) : alternates true c.code = true := by
  induction c with
  | prim p => rfl
  | hidden os => rfl
  | not c ih => exact ih

theorem alternates_gen : ∀ (w : List (Tok Cond)) (s : Bool) (code : List (Tok FishPrim)), genTokens whenPrim w = .ok code →
    alternates s code = alternates s w
  | [], s, code, h => by cases h; cases s <;> rfl
  | t :: w, s, code, h => by
    obtain ⟨r, hr⟩ := whenPrim_ok w
    cases t with
    | cmd c =>
      have : ∃ p, whenPrim c = .ok [.cmd p] := by cases c <;> exact ⟨_, rfl⟩
      obtain ⟨p, hp⟩ := this
      simp only [genTokens, hp, hr, bind, Except.bind] at h
      cases h
      cases s
      · rfl
      · exact alternates_gen w false r hr
    | _ =>
      simp only [genTokens, hr, bind, Except.bind] at h
      cases h
      cases s <;> first | rfl | exact alternates_gen w _ r hr

theorem denotes_alternates {α : Type} {ts : List (Tok α)} {e : ShellGrammar.Expr α} (h : ShellGrammar.Denotes ts e) : alternates true ts = true := by
  have := ShellGrammar.parse_complete h
  exact alternates_of_parse ts _ _ _ this

theorem tokens_alternate {d : FishDef} (h : WhenReads d) {tss : List (List (Tok FishPrim))} (ht : getConditions d.conds d.when_ = .ok tss) :
    ∀ ts ∈ tss, alternates true ts = true := by
  rw [getConditions_eq] at ht
  have base : ∀ ts ∈ (optimizedConditions d.conds).map FishCond.code, alternates true ts = true := by
    intro ts hts
    obtain ⟨c, -, rfl⟩ := List.mem_map.mp hts
    exact code_alternates c
  split at ht
  · cases ht; exact base
  · rename_i hne
    obtain ⟨code, hc⟩ := whenPrim_ok d.when_
    rw [hc] at ht
    cases ht
    intro ts hts
    rcases List.mem_append.mp hts with hts | hts
    · exact base ts hts
    · rw [List.mem_singleton] at hts
      subst hts
      rcases h with h | ⟨e, he⟩
      · rw [h] at hne; exact absurd rfl hne
      · rw [alternates_gen _ _ _ hc]; exact denotes_alternates he

/-- An entry is active iff the preparation succeeds and the definition is active. -/
theorem registered_active {stacking : Bool} {prog pre : Str} {funcs : List Str} (hp : ∀ c ∈ pre, isSafeChar c = true) {d : FishDef}
    {items : List FishArgItem} {e : FishRun.Entry} (hr : ∀ p ∈ d.prims, PrimReads p ∧ p.variable ∈ funcs) (hd : WhenReads d)
    {vars : List (Str × Str)} (henv : Env prog pre funcs vars) (h : Registered stacking prog pre funcs (d, items) e) (v : List Str → Bool) :
    e.Active v ↔ v [realName pre (S "prepare")] = true ∧ d.active (fun p => v (realName pre p.variable :: p.args)) := by
  obtain ⟨texts, xs, h1, h2, rfl⟩ := h
  obtain ⟨tss, htss⟩ := getConditions_ok d.conds d.when_
  have halt := tokens_alternate hd htss
  have hgood : GoodName (fun p => realName pre p.variable) := by
    intro p
    have hv := variable_mem p
    have := realName_plain hp (function_safe _ hv).2
    exact ⟨this.1, this.2, realName_not_keyword pre _⟩
  have hpr : ∀ ts ∈ tss, ∀ p, .cmd p ∈ ts → PrimReads p ∧ p.variable ∈ funcs :=
    fun ts hts p hm => hr p ((mem_prims htss).mpr ⟨ts, hts, hm⟩)
  -- each text succeeds iff its tokens do
  have key : All2 (fun x ts => FishRun.Succeeds v x ↔ ShellGrammar.run (fun p => v (realName pre p.variable :: p.args)) ts = some true) xs tss := by
    have hz : ∀ vars, Env prog pre funcs vars → All2 (fun t ts => ∃ x, Reads vars t x ∧ CondText (fun p => realName pre p.variable) ts x) texts tss :=
      fun vars henv => texts_tokens h1 htss (fun ts hts p hm => ⟨(hpr ts hts p hm).1, henv.functions _ (hpr ts hts p hm).2⟩)
    have hz0 := hz vars henv
    clear h1 htss hd
    induction h2 generalizing tss with
    | nil => cases hz0; exact .nil
    | @cons t x texts xs ht hrest ih =>
      cases hz0 with
      | @cons _ ts _ tss h1 h2 =>
        refine .cons ?_ (ih tss (fun u hu => halt u (by simp [hu])) (fun u hu => hpr u (by simp [hu]))
          (fun vars he => by cases hz vars he with | cons _ h => exact h) h2)
        obtain ⟨vars', he, hx⟩ := ht
        cases hz vars' he with
        | cons h3 _ =>
          obtain ⟨y, hy, hc⟩ := h3
          rw [reads_fun hx hy]
          exact succeeds_iff hgood hc (fun p hm => (hpr ts (by simp) p hm).1) (halt ts (by simp)) v
  show (∀ t ∈ realName pre (S "prepare") :: xs, FishRun.Succeeds v t) ↔ _
  have hall : (∀ t ∈ xs, FishRun.Succeeds v t) ↔ ∀ ts ∈ tss, ShellGrammar.run (fun p => v (realName pre p.variable :: p.args)) ts = some true := by
    clear h1 h2 htss halt hpr
    induction key with
    | nil => simp
    | cons h _ ih => simp [h, ih]
  rw [List.forall_mem_cons, succeeds_name (realName_plain hp (by decide)) (realName_not_keyword pre _), hall]
  unfold FishDef.active
  rw [htss]
  simp

end FishReads
end CC
