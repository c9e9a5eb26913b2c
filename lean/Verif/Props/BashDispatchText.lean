import Verif.Lemmas.BashDispatchRun
import Verif.Props.BashMasterText
/-!
# C105: running the text that calls the function that completes the arguments of options

`Spec/BashDispatch.lean` reads and runs the Bash text; `Spec/BashLetters.lean` says which letters stand for themselves.
-/

namespace CC

open BashText (isName)
open BashDispatch (Env)
open DispatchLex
open ShellGrammar (Denotes)
open WhenSpec
open OffersLex (condLine)

/-- Running the text does what the model of the dispatcher (`runDispatcher`) does. The script has the function `__complete_option`, which does what `complete`
says, and the function `prefixed`, which puts a prefix in front of what was found. The letters of the options stand for themselves in brackets, and the
old-style strings are made of characters that stand for themselves.
What is missing: letters that do not (`C105_negated`), and the code of the functions that are called. -/
theorem C105_as_modelled_partial {ε : Type} (env : Env ε) (ev : BEvent → ε) (prefixed : Str) (hp : isName prefixed = true) (i : DispatchInfo) (optionals : Bool)
    (complete : Str → Bool → List Str × Bool)
    (hcall : ∀ (o v : Str) (m : List Str), m.length ≤ 1 → env.call (S "__complete_option") (o :: v :: m) =
      some ((complete o (decide (m = [S "WITH_OPTIONAL"]))).1.map (fun code => ev (.arg code v [])), (complete o (decide (m = [S "WITH_OPTIONAL"]))).2))
    (hpre : ∀ (p v : Str) (codes : List Str), env.prefixed prefixed p (codes.map (fun code => ev (.arg code v []))) = some (codes.map (fun code => ev (.arg code v p))))
    (hfail : ∀ o m, (complete o m).2 = false → (complete o m).1 = []) (hopt : optionals = false → ∀ o, complete o true = complete o false)
    (hsome : (i.shortRequired || i.longRequired || i.oldRequired || (i.shortOptional || i.longOptional || i.oldOptional)) = true)
    (hletters : ∀ c ∈ i.noArgs ++ i.requiredArgs ++ i.optionalArgs, PlainLetter c) (hreq : i.shortRequired = true → i.requiredArgs ≠ [])
    (hopts : i.shortOptional = true → i.requiredArgs ++ i.optionalArgs ≠ [])
    (hold : ∀ s ∈ i.oldStrings, ∃ c t, s = '-' :: c :: t ∧ c ≠ '-' ∧ ∀ x ∈ c :: t, PlainChar x) (prev cur : Str) :
    BashDispatch.runText env (dispatcherText optionals prefixed i) prev cur = some ((runDispatcher i complete prev cur).1.map ev, (runDispatcher i complete prev cur).2) := by
  have ha : Agrees env ev prefixed complete := ⟨hcall, hpre, hfail⟩
  have hshort : (i.shortRequired || i.shortOptional) = true → i.requiredArgs ++ i.optionalArgs ≠ [] := by
    intro h
    rcases Bool.or_eq_true _ _ ▸ h with h | h
    · intro e
      exact hreq h (List.append_eq_nil_iff.mp e).1
    · exact hopts h
  have hpg := prev_good hletters hreq
  have hcg := cur_good hletters hshort hold
  have hne : casesOf i ≠ [] := by
    unfold casesOf
    simp only [hsome]
    simp
  have hgood : ∀ c ∈ casesOf i, ∀ cl ∈ c.2, GoodClauseD cl := by
    intro c hc cl hcl
    unfold casesOf at hc
    simp only [List.mem_append] at hc
    rcases hc with hc | hc
    · split at hc
      · rw [List.mem_singleton] at hc; subst hc; exact hpg cl hcl
      · cases hc
    · rw [if_pos hsome, List.mem_singleton] at hc
      subst hc
      exact hcg cl hcl
  have hprev := run_case (env := env) (ev := ev) (prefixed := prefixed) (complete := complete) (optionals := optionals) (prev := prev) (cur := cur) prev
    (fun cl hcl => (hpg cl hcl).1) (ok_all (fun cl hcl => ok_step ha hopt prev cur _ (fun e => absurd e (prev_acts i cl ((List.dropWhile_sublist _).subset hcl)).1)
      (fun e => absurd e (prev_acts i cl ((List.dropWhile_sublist _).subset hcl)).2)))
  have hcur := run_case (env := env) (ev := ev) (prefixed := prefixed) (complete := complete) (optionals := optionals) (prev := prev) (cur := cur) cur
    (fun cl hcl => (hcg cl hcl).1) (ok_drop ha hopt prev cur (fun cl hcl => (hcg cl hcl).1) (cur_seq i))
  unfold BashDispatch.runText
  rw [read_text hp hne hgood, Option.bind_some]
  unfold casesOf runDispatcher
  simp only
  rw [hsome]
  simp only [if_true]
  cases hr : (i.shortRequired || i.longRequired || i.oldRequired) with
  | false =>
    simp only [Bool.false_eq_true, if_false, List.nil_append, List.map_cons, List.map_nil, BashDispatch.runAll, BashDispatch.Word.value]
    rw [hcur, Option.bind_some]
    simp only
    split <;> simp_all
  | true =>
    simp only [if_true, List.map_cons, List.map_nil, List.cons_append, List.nil_append, BashDispatch.runAll, BashDispatch.Word.value]
    rw [hprev, Option.bind_some]
    simp only
    by_cases h1 : (runCase (DAct.run complete prev cur) prev (prevClauses i)).2 = true
    · rw [if_pos h1, if_pos h1]
    · rw [if_neg h1, if_neg h1, hcur, Option.bind_some]
      simp only
      by_cases h2 : (runCase (DAct.run complete prev cur) cur (curClauses i)).2 = true
      · rw [if_pos h2]; simp
      · rw [if_neg h2]; simp at h2; simp [h2]

namespace ArmsLex
open BashArms

/-- An argument that is missing is empty. -/
theorem run_args {env : BashOffers.Env} {a b : List Str} (h : ∀ v : Value, v.get a = v.get b) : ∀ (ss : List Stmt) (σ : Vars), BashArms.run env a σ ss = BashArms.run env b σ ss := by
  intro ss
  induction ss with
  | nil => intro σ; rfl
  | cons s r ih =>
    intro σ
    cases s with
    | locals vs => simp only [BashArms.run, h]; exact ih _
    | _ => simp only [BashArms.run, ih]

theorem call_two (env : BashOffers.Env) (text o v : Str) : BashArms.call env text [o, v] = BashArms.call env text [o, v, []] := by
  unfold BashArms.call
  congr 1
  funext f
  apply run_args
  intro x
  cases x with
  | lit t => rfl
  | arg n =>
    match n with
    | 0 => rfl
    | 1 => rfl
    | 2 => rfl
    | 3 => rfl
    | n + 4 => rfl

end ArmsLex

theorem completeOption_quiet {holds : Str → Bool} {os : List ArgOpt} (hne : os ≠ []) (hone : SingleStrings os) (o : Str) (m : Bool)
    (h : (completeOption holds os o m).2 = false) : (completeOption holds os o m).1 = [] := by
  by_cases hn : NotOnlyOptional os
  · have hr := completeOption_run (holds := holds) (opt := o) (m := m) hone hn
    by_cases hu : ∃ a ∈ os, o ∈ a.strings ∧ a.usable holds m
    · obtain ⟨a, h1, h2, h3⟩ := hu
      rw [hr.1 a h1 h2 h3] at h
      cases h
    · rw [hr.2 (fun a h1 h2 h3 => hu ⟨a, h1, h2, h3⟩)]
  · rw [completeOption_onlyOptional hne hn] at h
    cases h

theorem completeOption_mode {holds : Str → Bool} {os : List ArgOpt} (hne : os ≠ []) (hone : SingleStrings os) (hno : ∀ a ∈ os, a.optional = false) (o : Str) :
    completeOption holds os o true = completeOption holds os o false := by
  have hn : NotOnlyOptional os := by
    obtain ⟨a, ha⟩ := List.exists_mem_of_ne_nil _ hne
    exact .inl ⟨a, ha, hno a ha⟩
  have ht := completeOption_run (holds := holds) (opt := o) (m := true) hone hn
  have hf := completeOption_run (holds := holds) (opt := o) (m := false) hone hn
  have he : ∀ a ∈ os, a.usable holds true ↔ a.usable holds false := by
    intro a ha
    unfold ArgOpt.usable
    simp [hno a ha]
  by_cases hu : ∃ a ∈ os, o ∈ a.strings ∧ a.usable holds true
  · obtain ⟨a, h1, h2, h3⟩ := hu
    rw [ht.1 a h1 h2 h3, hf.1 a h1 h2 ((he a h1).mp h3)]
  · rw [ht.2 (fun a h1 h2 h3 => hu ⟨a, h1, h2, h3⟩), hf.2 (fun a h1 h2 h3 => hu ⟨a, h1, h2, (he a h1).mpr h3⟩)]

/-- The functions of a script: `__complete_option` is the function that a text defines, and `prefixed` puts a prefix in front of what was found. What is found are
the lines of a clause with the value of `cur` and a prefix. -/
noncomputable def scriptEnv (env : BashOffers.Env) (text prefixed : Str) : Env (List Str × Str × Str) where
  call f args := if f = S "__complete_option" then (BashArms.call env text args).map (fun r => (r.1.map (fun x => (x.1, x.2, [])), r.2)) else none
  prefixed h p es := if h = prefixed then some (es.map (fun e => (e.1, e.2.1, p))) else none

/-- The lines of an event. -/
def argLines : BEvent → List Str × Str × Str
  | .arg code value pre => (clauseLines code, value, pre)
  | _ => ([], [], [])

/-- Running the text of the dispatcher together with the text of `__complete_option` runs the lines of the code that the model says, for the value that the
model says and with the same prefix. What is missing is as in `C104_as_modelled_partial` and `C105_as_modelled_partial`. -/
theorem C105_with_function_partial (isRegex : Str → Bool) (pre : Str) (hp : ∀ c ∈ pre, ZshLex.idChar c = true) (options : List Opt) (os : List ArgOpt)
    (text : Str) (htext : masterText isRegex pre options os (S "__complete_option") = .ok (some text))
    (hname : ∀ o ∈ options, isName (captureVariable o) = true) (hos : os ≠ [])
    (hne : ∀ a ∈ os, a.strings ≠ []) (hstr : ∀ a ∈ os, ∀ s ∈ a.strings, s.head? = some '-' ∧ ∀ c ∈ s, PlainChar c)
    (hnum : NoNumericClash (fun w => ∃ a ∈ os, w ∈ a.strings)) (hcode : ∀ a ∈ os, CompleteCode a.code)
    (hone : ∀ a ∈ os, ∀ b ∈ os, ∀ s, s ∈ a.strings → s ∈ b.strings → a = b)
    (rx : Bool → Str → Str → Bool) (env : BashOffers.Env) (henv : env.call = bashHelperCall pre rx) (l : Line) (varOf : Str → Str)
    (hvar : ∀ s o, options.find? (fun o => decide (s ∈ o.strings)) = some o → varOf s = captureVariable o)
    (hview : BashView varOf l ⟨env.arrays, env.arrays (S "POSITIONALS")⟩)
    (hwhen : ∀ a ∈ os, ∀ w, a.cond = some w → ∀ ts, parseWhen isRegex w = .ok ts → (∃ e, Denotes ts e) ∧ ∀ c, .cmd c ∈ ts → condSafe c ∧ condLine c)
    (holds : Str → Bool) (hholds : ∀ a ∈ os, ∀ w, a.cond = some w → (holds w = true ↔ WhenTrue isRegex (holdsEach (fun a b => varOf a == varOf b) rx l) w))
    (prefixed : Str) (hpn : isName prefixed = true) (i : DispatchInfo)
    (hsome : (i.shortRequired || i.longRequired || i.oldRequired || (i.shortOptional || i.longOptional || i.oldOptional)) = true)
    (hletters : ∀ c ∈ i.noArgs ++ i.requiredArgs ++ i.optionalArgs, PlainLetter c) (hreq : i.shortRequired = true → i.requiredArgs ≠ [])
    (hopts : i.shortOptional = true → i.requiredArgs ++ i.optionalArgs ≠ [])
    (hold : ∀ s ∈ i.oldStrings, ∃ c t, s = '-' :: c :: t ∧ c ≠ '-' ∧ ∀ x ∈ c :: t, PlainChar x) (prev cur : Str) :
    BashDispatch.runText (scriptEnv env text prefixed) (dispatcherText (os.any (fun o => o.optional)) prefixed i) prev cur =
      some ((runDispatcher i (completeOption holds os) prev cur).1.map argLines, (runDispatcher i (completeOption holds os) prev cur).2) := by
  have hC := C104_as_modelled_partial isRegex pre hp options os (S "__complete_option") (by decide) text htext hname hne hstr hnum hcode rx env henv l varOf hvar hview hwhen holds hholds
  refine C105_as_modelled_partial (scriptEnv env text prefixed) argLines prefixed hpn i _ (completeOption holds os) ?_ ?_ (completeOption_quiet hos hone) ?_ hsome hletters hreq hopts hold prev cur
  · intro o v m hm
    have e : (scriptEnv env text prefixed).call (S "__complete_option") (o :: v :: m) =
        (BashArms.call env text (o :: v :: m)).map (fun r => (r.1.map (fun x => (x.1, x.2, [])), r.2)) := by simp [scriptEnv]
    rw [e]
    clear e
    match m, hm with
    | [], _ =>
      rw [ArmsLex.call_two, hC o v [], show decide (([] : Str) = S "WITH_OPTIONAL") = false from by decide, show decide (([] : List Str) = [S "WITH_OPTIONAL"]) = false from by decide]
      simp [argLines]
    | [x], _ =>
      rw [hC o v x, show decide ([x] = [S "WITH_OPTIONAL"]) = decide (x = S "WITH_OPTIONAL") from by simp]
      simp [argLines]
    | _ :: _ :: _, hm => exact absurd hm (by simp)
  · intro p v codes
    have e : ∀ es, (scriptEnv env text prefixed).prefixed prefixed p es = some (es.map (fun e => (e.1, e.2.1, p))) := fun es => if_pos rfl
    rw [e]
    simp [argLines]
  · intro h o
    refine completeOption_mode hos hone (fun a ha => ?_) o
    have := List.any_eq_false.mp h a ha
    simpa using this

/-! ## The text -/

/-- Two short options and one long option with arguments, and a short option and an old-style option without. -/
def exampleDispatch : DispatchInfo where
  shortRequired := true
  shortOptional := true
  longRequired := true
  longOptional := false
  oldRequired := false
  oldOptional := false
  oldStrings := [S "-old"]
  noArgs := S "v"
  requiredArgs := S "o"
  optionalArgs := S "w"

/-- The text of the example. -/
theorem C105_example_text : dispatcherText true (S "_prog__prefix_compreply") exampleDispatch = S (
    "case \"$prev\" in\n" ++
    "  --*) __complete_option \"$prev\" \"$cur\" WITHOUT_OPTIONAL && return 0;;\n" ++
    "  -*([v])[o])\n" ++
    "       __complete_option \"-${prev: -1}\" \"$cur\" WITHOUT_OPTIONAL && return 0;;\n" ++
    "esac\n" ++
    "\n" ++
    "case \"$cur\" in\n" ++
    "  --*=*)\n" ++
    "    __complete_option \"${cur%%=*}\" \"${cur#*=}\" WITH_OPTIONAL && return 0;;\n" ++
    "  --*);;\n" ++
    "  -old);;\n" ++
    "  -*([v])[ow]*)\n" ++
    "    local i\n" ++
    "    for ((i=2; i <= ${#cur}; ++i)); do\n" ++
    "      local pre=\"${cur:0:$i}\" value=\"${cur:$i}\"\n" ++
    "      __complete_option \"-${pre: -1}\" \"$value\" WITH_OPTIONAL && {\n" ++
    "        _prog__prefix_compreply \"$pre\"\n" ++
    "        return 0\n" ++
    "      }\n" ++
    "    done;;\n" ++
    "esac") := by decide +kernel

/-- The example meets the conditions about the options of `C105_as_modelled_partial`, and `-vofile` has the value `file` and the prefix `-vo`. -/
theorem C105_example_hypotheses :
    isName (S "_prog__prefix_compreply") = true ∧
    (∀ c ∈ exampleDispatch.noArgs ++ exampleDispatch.requiredArgs ++ exampleDispatch.optionalArgs, PlainLetter c) ∧ exampleDispatch.requiredArgs ≠ [] ∧
    (∀ s ∈ exampleDispatch.oldStrings, ∃ c t, s = '-' :: c :: t ∧ c ≠ '-' ∧ ∀ x ∈ c :: t, PlainChar x) ∧
    runDispatcher exampleDispatch (fun o _ => if o = S "-o" then ([S "code"], true) else ([], false)) (S "x") (S "-vofile") = ([.arg (S "code") (S "file") (S "-vo")], true) := by
  refine ⟨by decide, by unfold PlainLetter; decide +kernel, by decide, ?_, by decide +kernel⟩
  intro s hs
  simp only [exampleDispatch, List.mem_singleton] at hs
  subst hs
  exact ⟨'o', S "ld", rfl, by decide, by unfold PlainChar; decide +kernel⟩

/-! ## Letters that do not stand for themselves -/

/-- Options `-!` and `-o` that need an argument. -/
def bangDispatch : DispatchInfo where
  shortRequired := true
  shortOptional := false
  longRequired := false
  longOptional := false
  oldRequired := false
  oldOptional := false
  oldStrings := []
  noArgs := []
  requiredArgs := S "!o"
  optionalArgs := []

theorem bang_reads : GReads caseCtx (S "[!o]") [.cls true [('o', 'o')]] := by
  have := reads_cls (x := caseCtx) true (S "o") (by decide) (by unfold ClsChar; decide) (by intro h; cases h) '!' (.inl rfl)
  exact this

/-- With the letter `!` in front, the brackets match all other letters: the argument of `-o` is not completed, whatever
the functions of the script do. -/
theorem C105_negated {ε : Type} (env : Env ε) :
    'o' ∈ bangDispatch.requiredArgs ∧
    BashDispatch.runText env (dispatcherText false (S "_prog__prefix_compreply") bangDispatch) (S "-o") (S "x") = some ([], false) := by
  refine ⟨by decide, ?_⟩
  have hread : BashDispatch.read (dispatcherText false (S "_prog__prefix_compreply") bangDispatch) = some [
      (.prev, [⟨S "--*", .nop, false⟩, ⟨S "-[!o]", .call (S "__complete_option") .lastOfPrev .cur [], false⟩]),
      (.cur, [⟨S "--*=*", .nop, false⟩, ⟨S "--*", .nop, false⟩, ⟨S "-[!o]*", .loop (S "__complete_option") (S "_prog__prefix_compreply") [], false⟩])] := by decide +kernel
  have hs := BashText.readable_wild (.inl rfl : '*' = '*' ∨ '*' = '?')
  have hb : Readable caseCtx (S "[!o]") := ⟨_, bang_reads⟩
  have m1 := pat_means (p := .long) trivial
  have m2 := pat_means (p := .longEq) trivial
  have m3 : BashText.Means (S "-[!o]") (fun w => ∃ c, w = ['-', c] ∧ c ≠ 'o') := by
    refine (BashText.means_of_readable (readable_lit_cons lit_dash hb) (by simp)).congr ?_
    intro w
    rw [matches_lit_cons lit_dash hb]
    constructor
    · rintro ⟨u, rfl, hu⟩
      rw [matches_of_reads bang_reads, seqLang_single] at hu
      simp only [Glob.Lang] at hu
      obtain ⟨c, rfl, hc⟩ := hu
      refine ⟨c, rfl, ?_⟩
      rintro rfl
      exact hc ⟨('o', 'o'), by simp, Nat.le_refl _, Nat.le_refl _⟩
    · rintro ⟨c, rfl, hc⟩
      refine ⟨[c], rfl, ?_⟩
      rw [matches_of_reads bang_reads, seqLang_single]
      refine ⟨c, rfl, ?_⟩
      show ¬ inRanges [('o', 'o')] c
      rintro ⟨r, hr, h1, h2⟩
      rw [List.mem_singleton] at hr
      subst hr
      simp only at h1 h2
      exact hc (char_eq_of_toNat (by omega))
  have m4 : BashText.Means (S "-[!o]*") (fun w => ∃ t, w = '-' :: t ∧ Matches caseCtx (S "[!o]" ++ ['*']) t) := by
    have h := readable_append hb hs
    refine (BashText.means_of_readable (t := '-' :: (S "[!o]" ++ ['*'])) (readable_lit_cons lit_dash h) (by simp)).congr ?_
    intro w
    exact matches_lit_cons lit_dash h w
  obtain ⟨a1, r1, l1⟩ := m1
  obtain ⟨a2, r2, l2⟩ := m2
  obtain ⟨a3, r3, l3⟩ := m3
  obtain ⟨a4, r4, l4⟩ := m4
  have r1 : readGlob caseCtx (S "--*") = some a1 := r1
  have r2 : readGlob caseCtx (S "--*=*") = some a2 := r2
  have n1 : ¬ Glob.AltLang a1 (S "-o") := fun e => absurd ((l1 _).mp e) (by decide)
  have n2 : ¬ Glob.AltLang a3 (S "-o") := by
    intro e
    obtain ⟨c, h1, h2⟩ := (l3 _).mp e
    simp only [S, String.reduceToList, List.cons.injEq, true_and, and_true] at h1
    exact h2 h1.symm
  have n3 : ¬ Glob.AltLang a2 (S "x") := fun e => absurd ((l2 _).mp e) (by decide)
  have n4 : ¬ Glob.AltLang a1 (S "x") := fun e => absurd ((l1 _).mp e) (by decide)
  have n5 : ¬ Glob.AltLang a4 (S "x") := by
    intro e
    obtain ⟨t, h1, -⟩ := (l4 _).mp e
    cases h1
  unfold BashDispatch.runText
  rw [hread, Option.bind_some]
  simp only [BashDispatch.runAll, BashDispatch.Word.value, BashDispatch.select, r1, r2, r3, r4, Option.bind_some, n1, n2, n3, n4, n5, if_false,
    BashDispatch.runFrom, Option.map_some, List.append_nil]
  rfl

end CC
