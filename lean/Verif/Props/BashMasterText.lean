import Verif.Lemmas.BashArmsWhole
import Verif.Lemmas.BashFunction
import Verif.Props.CliOptions
import Verif.Props.BashFileV2
import Verif.Props.BashPositionalText
/-!
# C104: running the text of the function that completes the arguments of options

`Spec/BashArms.lean` reads and runs the Bash text; `Spec/CompleteCode.lean` says which codes may stand in a clause.
-/

namespace CC

open ShellGrammar (Denotes Tok parse_complete)
open WhenSpec
open BashText (isName)
open BashOffers (Env)
open OffersLex (stateOf condLine)

namespace ArmsLex
open BashArms

/-! ## The conditions -/

theorem when_value {isRegex : Str → Bool} {pre : Str} (hp : ∀ c ∈ pre, ZshLex.idChar c = true) {options : List Opt}
    (hname : ∀ o ∈ options, isName (captureVariable o) = true)
    {varOf : Str → Str} (hvar : ∀ s o, options.find? (fun o => decide (s ∈ o.strings)) = some o → varOf s = captureVariable o)
    (rx : Bool → Str → Str → Bool) (env : Env) (henv : env.call = bashHelperCall pre rx) {l : WhenSpec.Line} (hview : BashView varOf l (stateOf env))
    {w : Str} {ts : List (Tok Cond)} (hpw : parseWhen isRegex w = .ok ts) (hd : ∃ e, Denotes ts e) (hs : ∀ c, .cmd c ∈ ts → condSafe c ∧ condLine c)
    {wt : Str} (hx : bashWhenText pre (bashResolve options) ts = .ok wt) :
    ∃ e v, readList wt = some e ∧ BashBlocks.succeeds env e = some v ∧ (v = true ↔ WhenTrue isRegex (holdsEach (fun a b => varOf a == varOf b) rx l) w) ∧ '\n' ∉ wt := by
  obtain ⟨ex, hd⟩ := hd
  obtain ⟨bc, hg⟩ := OffersLex.bashWhen_code hx
  have hgn := OffersLex.good_resolve hname
  have htsne : ts ≠ [] := by
    rintro rfl
    have := parse_complete hd
    simp [ShellGrammar.parse, ShellGrammar.parseGo] at this
  obtain ⟨w1, w2⟩ := OffersLex.bashWhen_reads hp hgn htsne (fun k hk => (hs k hk).2) hx hg
  have hcg := OffersLex.code_good hgn (fun k hk => (hs k hk).2) hg
  let hv : Cond → Bool := fun c => open Classical in decide (holdsEach (fun a b => varOf a == varOf b) rx l c)
  have hb := braces_context hd (BashPrim.succeeds rx (stateOf env)) hv hg
    (by
      intro c a hm hga
      obtain ⟨e', d, hv⟩ := bash_prim (bashResolve_resolves hvar) rx hview c (hs c hm).1 a hga
      exact ⟨e', d, by rw [hv]⟩)
  obtain ⟨e2, d2, v2⟩ := hb.1
  refine ⟨_, ex.eval hv, BlocksLex.condition_text (OffersLex.primSimple pre) (fun p => OffersLex.osSimple_plain pre (.when_ p)) w1 d2, ?_, ?_, w2⟩
  · rw [BlocksLex.succeeds_mapped env (OffersLex.primSimple pre) (BashPrim.succeeds rx (stateOf env)) d2, v2]
    intro k hk
    exact BlocksLex.simple_when hp rx env henv k (hcg _ (List.mem_map.mpr ⟨_, hk, rfl⟩))
  · constructor
    · intro h
      exact ⟨ts, ex, hpw, hd, hv, fun c => by simp [hv], h⟩
    · rintro ⟨ts', e', h1, h2, v, h3, h4⟩
      rw [hpw] at h1
      cases h1
      have q1 := parse_complete hd
      have q2 := parse_complete h2
      rw [q1] at q2
      cases q2
      have : v = hv := by
        funext c
        rw [Bool.eq_iff_iff, h3]
        simp [hv]
      rw [← this]
      exact h4

/-! ## The statements -/

/-- Where the parts of a statement come from. -/
def GoodStmt (os : List ArgOpt) : MStmt → Prop
  | .ifCase strings cond code => ∃ a ∈ os, a.strings = strings ∧ a.cond = some cond ∧ a.code = code
  | .cases cls => ∀ cl ∈ cls, cl.1 ≠ [] ∧ (∀ s ∈ cl.1, ∃ a ∈ os, s ∈ a.strings) ∧ ∃ a ∈ os, a.code = cl.2
  | .casesRet cls => ∀ cl ∈ cls, cl.1 ≠ [] ∧ (∀ s ∈ cl.1, ∃ a ∈ os, s ∈ a.strings) ∧ ∃ a ∈ os, a.code = cl.2
  | _ => True

theorem grouped_good {os sub : List ArgOpt} (hsub : ∀ a ∈ sub, a ∈ os) (hne : ∀ a ∈ os, a.strings ≠ []) :
    ∀ cl ∈ groupedClauses sub, cl.1 ≠ [] ∧ (∀ s ∈ cl.1, ∃ a ∈ os, s ∈ a.strings) ∧ ∃ a ∈ os, a.code = cl.2 := by
  intro cl hcl
  obtain ⟨g, hg, rfl⟩ := List.mem_map.mp hcl
  have hmem := fun x => groupBy_mem ArgOpt.code sub (k := g.1) (xs := g.2) hg x
  obtain ⟨a, ha⟩ := List.exists_mem_of_ne_nil _ (groupBy_nonempty ArgOpt.code sub g hg)
  obtain ⟨h1, h2⟩ := (hmem a).mp ha
  refine ⟨?_, ?_, a, hsub a h1, h2⟩
  · intro h
    rw [List.flatMap_eq_nil_iff] at h
    exact hne a (hsub a h1) (h a ha)
  · intro s hs
    obtain ⟨b, hb, hs⟩ := List.mem_flatMap.mp hs
    exact ⟨b, hsub b ((hmem b).mp hb).1, hs⟩

theorem addWhen_good {os sub : List ArgOpt} (hsub : ∀ a ∈ sub, a ∈ os) (hne : ∀ a ∈ os, a.strings ≠ []) : ∀ s ∈ addOptionsWhen sub, GoodStmt os s ∧ needsMode s = false ∧ needsRet s = false := by
  intro s hs
  unfold addOptionsWhen at hs
  rw [partitionBy_eq] at hs
  simp only [List.mem_append] at hs
  rcases hs with hs | hs
  · obtain ⟨a, ha, rfl⟩ := List.mem_map.mp hs
    obtain ⟨ha, hc⟩ := List.mem_filter.mp ha
    obtain ⟨w, hw⟩ := Option.isSome_iff_exists.mp hc
    refine ⟨⟨a, hsub a ha, rfl, ?_, rfl⟩, rfl, rfl⟩
    rw [hw]; rfl
  · split at hs
    · cases hs
    · rw [List.mem_singleton] at hs
      subst hs
      exact ⟨grouped_good (fun a ha => hsub a (List.mem_filter.mp ha).1) hne, rfl, rfl⟩

theorem addNoWhen_good {os sub : List ArgOpt} (hsub : ∀ a ∈ sub, a ∈ os) (hne : ∀ a ∈ os, a.strings ≠ []) : ∀ s ∈ addOptionsNoWhen sub, GoodStmt os s ∧ needsMode s = false := by
  intro s hs
  unfold addOptionsNoWhen at hs
  split at hs
  · cases hs
  · rw [List.mem_singleton] at hs
    subst hs
    exact ⟨grouped_good hsub hne, rfl⟩

theorem master_good {os : List ArgOpt} (hne : ∀ a ∈ os, a.strings ≠ []) : ∀ s ∈ (masterOf os).2, GoodStmt os s ∧ (needsMode s = true → os.any (fun o => o.optional) = true) ∧
    ((masterOf os).1 = true → needsRet s = false) := by
  have hf : ∀ p : ArgOpt → Bool, ∀ a ∈ os.filter p, a ∈ os := fun p a ha => (List.mem_filter.mp ha).1
  have hany : ¬ (os.filter (fun o => o.optional)).isEmpty = true → os.any (fun o => o.optional) = true := by
    intro h
    obtain ⟨a, ha⟩ := List.exists_mem_of_ne_nil (os.filter (fun o => o.optional)) (by intro e; rw [e] at h; exact h rfl)
    obtain ⟨h1, h2⟩ := List.mem_filter.mp ha
    exact List.any_eq_true.mpr ⟨a, h1, h2⟩
  intro s hs
  unfold masterOf at hs ⊢
  split
  · rename_i h
    rw [if_pos h] at hs
    simp only [masterWhen, List.mem_append] at hs
    rcases hs with hs | hs
    · obtain ⟨h1, h2, h3⟩ := addWhen_good (hf _) hne s hs
      exact ⟨h1, (fun e => by rw [h2] at e; cases e), fun _ => h3⟩
    · split at hs
      · cases hs
      · rename_i ho
        rcases List.mem_cons.mp hs with rfl | hs
        · exact ⟨trivial, fun _ => hany ho, fun _ => rfl⟩
        · obtain ⟨h1, h2, h3⟩ := addWhen_good (hf _) hne s hs
          exact ⟨h1, (fun e => by rw [h2] at e; cases e), fun _ => h3⟩
  · rename_i h
    rw [if_neg h] at hs
    simp only [masterNoWhen, List.mem_append] at hs
    rcases hs with hs | hs
    · obtain ⟨h1, h2⟩ := addNoWhen_good (hf _) hne s hs
      exact ⟨h1, (fun e => by rw [h2] at e; cases e), fun e => by cases e⟩
    · split at hs
      · cases hs
      · rename_i ho
        rcases List.mem_cons.mp hs with rfl | hs
        · exact ⟨trivial, fun _ => hany ho, fun e => by cases e⟩
        · obtain ⟨h1, h2⟩ := addNoWhen_good (hf _) hne s hs
          exact ⟨h1, (fun e => by rw [h2] at e; cases e), fun e => by cases e⟩

/-- There is a statement if there is an option. -/
theorem master_ne {os : List ArgOpt} : (masterOf os).2 = [] ↔ os = [] := by
  constructor
  · intro h
    have hall : os.filter (fun o => o.optional) = [] ∧ os.filter (fun o => !o.optional) = [] := by
      unfold masterOf at h
      split at h
      · simp only [masterWhen, List.append_eq_nil_iff] at h
        obtain ⟨h1, h2⟩ := h
        constructor
        · by_cases ho : os.filter (fun o => o.optional) = []
          · exact ho
          · rw [if_neg (by simpa using ho)] at h2
            cases h2
        · unfold addOptionsWhen at h1
          rw [partitionBy_eq] at h1
          simp only [List.append_eq_nil_iff, List.map_eq_nil_iff] at h1
          obtain ⟨h3, h4⟩ := h1
          have h4 : (os.filter (fun o => !o.optional)).filter (fun o => !o.cond.isSome) = [] := by
            by_cases ho : (os.filter (fun o => !o.optional)).filter (fun o => !o.cond.isSome) = []
            · exact ho
            · rw [if_neg (by simpa using ho)] at h4
              cases h4
          rw [List.filter_eq_nil_iff] at h3 h4
          rw [List.eq_nil_iff_forall_not_mem]
          intro a ha
          have h3 := h3 a ha
          have h4 := h4 a ha
          cases hc : a.cond.isSome <;> simp_all
      · simp only [masterNoWhen, List.append_eq_nil_iff] at h
        obtain ⟨h1, h2⟩ := h
        constructor
        · by_cases ho : os.filter (fun o => o.optional) = []
          · exact ho
          · rw [if_neg (by simpa using ho)] at h2
            cases h2
        · unfold addOptionsNoWhen at h1
          by_cases ho : os.filter (fun o => !o.optional) = []
          · exact ho
          · rw [if_neg (by simpa using ho)] at h1
            cases h1
    rw [List.eq_nil_iff_forall_not_mem]
    intro a ha
    have h1 := List.filter_eq_nil_iff.mp hall.1 a ha
    have h2 := List.filter_eq_nil_iff.mp hall.2 a ha
    cases hc : a.optional <;> simp_all
  · rintro rfl
    rfl

/-! ## The patterns -/

theorem clause_good {os : List ArgOpt} (hstr : ∀ a ∈ os, ∀ s ∈ a.strings, s.head? = some '-' ∧ ∀ c ∈ s, PlainChar c)
    (hnum : NoNumericClash (fun w => ∃ a ∈ os, w ∈ a.strings)) (hcode : ∀ a ∈ os, CompleteCode a.code)
    {cl : List Str × Str} (h1 : cl.1 ≠ []) (h2 : ∀ s ∈ cl.1, ∃ a ∈ os, s ∈ a.strings) (h3 : ∃ a ∈ os, a.code = cl.2) :
    GoodClause cl ∧ MeansStrings cl ∧ '\n' ∉ makePattern cl.1 := by
  have hs : ∀ s ∈ cl.1, s.head? = some '-' ∧ ∀ c ∈ s, PlainChar c := by
    intro s hs
    obtain ⟨a, ha, h⟩ := h2 s hs
    exact hstr a ha s h
  have hm : MeansStrings cl := by
    refine C11_exact_partial cl.1 h1 ?_ ?_
    · intro s h
      refine ⟨?_, (hs s h).2⟩
      rintro rfl
      have := (hs _ h).1
      cases this
    · intro a x y hx hy
      exact hnum a x y (h2 _ hx) (h2 _ hy)
  have hn : '\n' ∉ makePattern cl.1 := BashText.break_pattern (fun t ht => BashText.plain_break (hs t ht).2)
  obtain ⟨a, ha, e⟩ := h3
  refine ⟨⟨BashText.pat_of hm ?_ hn, by rw [← e]; exact hcode a ha⟩, hm, hn⟩
  refine ⟨"esac".toList, fun h => ?_⟩
  have := (hs _ (h.mpr rfl)).1
  revert this
  decide +kernel

theorem clauses_nl {f : List Str × Str → List Str} {cls : List (List Str × Str)} (h : ∀ cl ∈ cls, ∀ l ∈ f cl, '\n' ∉ l) : ∀ l ∈ cls.flatMap f, '\n' ∉ l := by
  intro l hl
  obtain ⟨cl, h1, h2⟩ := List.mem_flatMap.mp hl
  exact h cl h1 l h2

theorem return_nl {cl : List Str × Str} (h : '\n' ∉ makePattern cl.1) : ∀ l ∈ returnClauseLines cl, '\n' ∉ l := by
  intro l hl
  simp only [returnClauseLines, List.mem_cons, List.mem_append, List.not_mem_nil, or_false] at hl
  rcases hl with rfl | hl | rfl
  · simp [S, h]
  · exact codeL_nl _ l hl
  · decide +kernel

theorem plain_nl {cl : List Str × Str} (h : '\n' ∉ makePattern cl.1) : ∀ l ∈ plainClauseLines cl, '\n' ∉ l := by
  intro l hl
  unfold plainClauseLines at hl
  split at hl
  · rw [List.mem_singleton] at hl
    subst hl
    simp [S, h]
  · rcases List.mem_cons.mp hl with rfl | hl
    · simp [S, h]
    · unfold ended at hl
      rcases List.mem_append.mp hl with hl | hl
      · exact codeL_nl _ l (List.dropLast_subset _ hl)
      · rw [List.mem_singleton] at hl
        subst hl
        simp only [List.mem_append, not_or]
        refine ⟨?_, by decide +kernel⟩
        cases hg : (codeL cl.2).getLast? with
        | none => simp
        | some x => exact codeL_nl _ x (List.mem_of_getLast? hg)

/-- The lines of the statements, what they are read as, and that it is the same. -/
theorem lines_mapE {env : Env} {holds : Str → Bool} {f : MStmt → Except Err Str} : ∀ {l : List MStmt} {code : List Str}, mapE f l = .ok code →
    (∀ s ∈ l, ∀ t, f s = .ok t → ∃ L ss, t = joinWith ['\n'] L ∧ L ≠ [] ∧ (∀ x ∈ L, '\n' ∉ x) ∧ ReadsAs (L.map (ind 2)) ss ∧ Same env holds s ss) →
    ∃ B : List (List Str × List Stmt), code = B.map (fun b => joinWith ['\n'] b.1) ∧ (∀ b ∈ B, b.1 ≠ [] ∧ (∀ x ∈ b.1, '\n' ∉ x) ∧ ReadsAs (b.1.map (ind 2)) b.2) ∧
      SameAll env holds l (B.flatMap (·.2))
  | [], code, h, _ => by
    simp only [mapE, Except.ok.injEq] at h
    subst h
    exact ⟨[], rfl, by simp, .nil⟩
  | s :: l, code, h, hg => by
    simp only [mapE, bind, Except.bind] at h
    cases hx : f s with
    | error e => rw [hx] at h; cases h
    | ok t =>
      rw [hx] at h
      simp only at h
      cases hl : mapE f l with
      | error e => rw [hl] at h; cases h
      | ok ts =>
        rw [hl] at h
        simp only [Except.ok.injEq] at h
        subst h
        obtain ⟨B, h1, h2, h3⟩ := lines_mapE hl (fun y hy => hg y (by simp [hy]))
        obtain ⟨L, ss, e, g1, g2, g3, g4⟩ := hg s (by simp) t hx
        refine ⟨(L, ss) :: B, by simp [e, h1], ?_, .cons g4 h3⟩
        intro b hb
        rcases List.mem_cons.mp hb with rfl | hb
        · exact ⟨g1, g2, g3⟩
        · exact h2 b hb

theorem locals_hold {opt cur mode : Str} {stmts : List MStmt} {hasWhen optionals : Bool} (h1 : stmts.any needsMode = true → optionals = true)
    (h2 : hasWhen = true → stmts.any needsRet = false) :
    Holds ((localsOf hasWhen optionals).foldl (fun σ v => σ.set v.1 (v.2.get [opt, cur, mode])) (fun _ => none)) opt cur mode stmts hasWhen true where
  opt := by cases hasWhen <;> cases optionals <;> rfl
  cur := by cases hasWhen <;> cases optionals <;> rfl
  mode hm := by rw [h1 hm]; cases hasWhen <;> rfl
  ret hw := by rw [hw]; cases optionals <;> rfl
  noRet := h2

end ArmsLex

open ArmsLex

/-- **C104, as in C66** What a call of the function in the script runs is what the model `completeOption` runs, which C66 and C67 are about:
for all options with arguments, all codes and all lines. Partial: as in `C104_completed_partial`. -/
theorem C104_as_modelled_partial (isRegex : Str → Bool) (pre : Str) (hp : ∀ c ∈ pre, ZshLex.idChar c = true) (options : List Opt) (os : List ArgOpt)
    (f : Str) (hf : isName f = true) (text : Str) (htext : masterText isRegex pre options os f = .ok (some text))
    (hname : ∀ o ∈ options, isName (captureVariable o) = true)
    (hne : ∀ a ∈ os, a.strings ≠ []) (hstr : ∀ a ∈ os, ∀ s ∈ a.strings, s.head? = some '-' ∧ ∀ c ∈ s, PlainChar c)
    (hnum : NoNumericClash (fun w => ∃ a ∈ os, w ∈ a.strings)) (hcode : ∀ a ∈ os, CompleteCode a.code)
    (rx : Bool → Str → Str → Bool) (env : Env) (henv : env.call = bashHelperCall pre rx) (l : Line) (varOf : Str → Str)
    (hvar : ∀ s o, options.find? (fun o => decide (s ∈ o.strings)) = some o → varOf s = captureVariable o)
    (hview : BashView varOf l ⟨env.arrays, env.arrays (S "POSITIONALS")⟩)
    (hwhen : ∀ a ∈ os, ∀ w, a.cond = some w → ∀ ts, parseWhen isRegex w = .ok ts → (∃ e, Denotes ts e) ∧ ∀ c, .cmd c ∈ ts → condSafe c ∧ condLine c)
    (holds : Str → Bool) (hholds : ∀ a ∈ os, ∀ w, a.cond = some w → (holds w = true ↔ WhenTrue isRegex (holdsEach (fun a b => varOf a == varOf b) rx l) w))
    (opt cur mode : Str) :
    BashArms.call env text [opt, cur, mode] = some ((completeOption holds os opt (decide (mode = S "WITH_OPTIONAL"))).1.map (fun code => (clauseLines code, cur)),
      (completeOption holds os opt (decide (mode = S "WITH_OPTIONAL"))).2) := by
  have hgood := master_good hne
  simp only [masterText, bind, Except.bind] at htext
  cases hc : mapE (MStmt.text isRegex pre options) (masterOf os).2 with
  | error e => rw [hc] at htext; cases htext
  | ok code =>
    rw [hc] at htext
    simp only at htext
    obtain ⟨B, hB1, hB2, hB3⟩ := lines_mapE (env := env) (holds := holds) hc (by
      intro s hs t ht
      obtain ⟨wt, e1, e2⟩ := stmt_text ht
      obtain ⟨hgs, -, -⟩ := hgood s hs
      cases s with
      | ifCase strings cond code =>
        obtain ⟨a, ha, rfl, hcond, rfl⟩ := hgs
        obtain ⟨ts, hts, hwt⟩ := e2 cond rfl
        obtain ⟨hd, hsafe⟩ := hwhen a ha cond hcond ts hts
        obtain ⟨e, v, r1, r2, r3, r4⟩ := when_value hp hname hvar rx env henv hview hts hd hsafe hwt
        obtain ⟨g1, g2, g3⟩ := clause_good hstr hnum hcode (cl := (a.strings, a.code)) (hne a ha) (fun s hs => ⟨a, ha, hs⟩) ⟨a, ha, rfl⟩
        have hv : v = holds cond := by rw [Bool.eq_iff_iff, r3, hholds a ha cond hcond]
        refine ⟨_, _, e1, stmtLines_ne _ _, ?_, reads_if g1.1 g1.2 r1, .ifCase g2 (by rw [r2, hv])⟩
        intro x hx
        simp only [stmtLines, List.mem_cons, List.mem_append, List.not_mem_nil, or_false] at hx
        rcases hx with rfl | rfl | hx | rfl | rfl | rfl
        · have : '\n' ∉ makePattern a.strings := g3
          simp [S, this]
        · simp [S, r4]
        · exact codeL_nl _ x hx
        · decide +kernel
        · decide +kernel
        · decide +kernel
      | cases cls =>
        have hcl := fun cl hm => clause_good hstr hnum hcode (hgs cl hm).1 (hgs cl hm).2.1 (hgs cl hm).2.2
        refine ⟨_, _, e1, stmtLines_ne _ _, ?_, reads_returns (fun cl hm => (hcl cl hm).1), .cases (fun cl hm => (hcl cl hm).2.1)⟩
        intro x hx
        simp only [stmtLines, List.mem_cons, List.mem_append, List.not_mem_nil, or_false] at hx
        rcases hx with rfl | hx | rfl
        · decide +kernel
        · exact clauses_nl (fun cl hm => return_nl (hcl cl hm).2.2) x hx
        · decide +kernel
      | mode => exact ⟨_, _, e1, stmtLines_ne _ _, by simp only [stmtLines]; decide +kernel, reads_mode, .mode⟩
      | casesRet cls =>
        have hcl := fun cl hm => clause_good hstr hnum hcode (hgs cl hm).1 (hgs cl hm).2.1 (hgs cl hm).2.2
        refine ⟨_, _, e1, stmtLines_ne _ _, ?_, reads_plains (fun cl hm => (hcl cl hm).1), .casesRet (fun cl hm => (hcl cl hm).2.1)⟩
        intro x hx
        simp only [stmtLines, List.mem_cons, List.mem_append, List.not_mem_nil, or_false] at hx
        rcases hx with rfl | hx | rfl | rfl
        · decide +kernel
        · exact clauses_nl (fun cl hm => plain_nl (hcl cl hm).2.2) x hx
        · decide +kernel
        · decide +kernel
      | checkRet => exact ⟨_, _, e1, stmtLines_ne _ _, by simp only [stmtLines]; decide +kernel, reads_check, .checkRet⟩)
    split at htext
    · cases htext
    · rename_i hcne
      have hBne : B ≠ [] := by
        rintro rfl
        rw [hB1] at hcne
        exact hcne rfl
      simp only [Except.ok.injEq, Option.some.injEq] at htext
      have hlines := function_lines f (masterOf os).1 (os.any (fun o => o.optional)) (Ls := B.map (·.1)) (by simpa using hBne) (by
        intro L hL
        obtain ⟨b, hb, rfl⟩ := List.mem_map.mp hL
        exact ⟨(hB2 b hb).1, (hB2 b hb).2.1⟩)
      rw [List.map_map, List.map_map, show (joinWith ['\n'] ∘ fun x : List Str × List BashArms.Stmt => x.1) = fun b => joinWith ['\n'] b.1 from rfl, ← hB1] at hlines
      have hread := read_function hf (masterOf os).1 (os.any (fun o => o.optional)) (Ls := B.map (fun b => (b.1.map (ind 2), b.2))) (by simpa using hBne) (by
        intro x hx l hl
        obtain ⟨b, hb, rfl⟩ := List.mem_map.mp hx
        obtain ⟨y, hy, rfl⟩ := List.mem_map.mp hl
        exact ind_nl ((hB2 b hb).2.1 y hy)) (by
        intro x hx
        obtain ⟨b, hb, rfl⟩ := List.mem_map.mp hx
        exact (hB2 b hb).2.2)
      rw [List.map_map, List.flatMap_map] at hread
      rw [← htext, hlines]
      unfold BashArms.call
      rw [show ((fun L : List Str => L.map (ind 2)) ∘ fun x : List Str × List BashArms.Stmt => x.1) = ((fun x : List Str × List BashArms.Stmt => x.1) ∘ fun b => (b.1.map (ind 2), b.2)) from rfl, hread,
        Option.bind_some, BashArms.run]
      refine run_same hB3 (locals_hold ?_ ?_)
      · intro h
        obtain ⟨s, hs, hm⟩ := List.any_eq_true.mp h
        exact (hgood s hs).2.1 hm
      · intro h
        rw [List.any_eq_false]
        intro s hs hm
        rw [(hgood s hs).2.2 h] at hm
        cases hm

open Classical in
/-- **C104** For all options that take arguments, with any conditions and codes, and for every word: Bash can read the function in the
script. Calling it with an option string, the word to complete and the mode does what its documentation says. If the string belongs to an
option whose condition holds, and the argument is not optional or the mode is `WITH_OPTIONAL`, it runs the code of that option, once and
nothing else, with the word in `cur`, and succeeds. Otherwise it runs nothing and fails. Partial: no string belongs to two options; strings are dashes
followed by plain characters, without the clash of numbers of C11; some option has a required argument or a condition
(`C104_only_optional` is the other case); the codes are complete commands (`Spec/CompleteCode.lean`); `when` as in C08, its values without line breaks. -/
theorem C104_completed_partial (isRegex : Str → Bool) (pre : Str) (hp : ∀ c ∈ pre, ZshLex.idChar c = true) (options : List Opt) (os : List ArgOpt)
    (f : Str) (hf : isName f = true) (text : Str) (htext : masterText isRegex pre options os f = .ok (some text))
    (hname : ∀ o ∈ options, isName (captureVariable o) = true)
    (hne : ∀ a ∈ os, a.strings ≠ []) (hstr : ∀ a ∈ os, ∀ s ∈ a.strings, s.head? = some '-' ∧ ∀ c ∈ s, PlainChar c)
    (hnum : NoNumericClash (fun w => ∃ a ∈ os, w ∈ a.strings)) (hcode : ∀ a ∈ os, CompleteCode a.code)
    (hone : ∀ a ∈ os, ∀ b ∈ os, ∀ s, s ∈ a.strings → s ∈ b.strings → a = b)
    (hsome : (∃ a ∈ os, a.optional = false) ∨ ∃ a ∈ os, a.cond ≠ none)
    (rx : Bool → Str → Str → Bool) (env : Env) (henv : env.call = bashHelperCall pre rx) (l : Line) (varOf : Str → Str)
    (hvar : ∀ s o, options.find? (fun o => decide (s ∈ o.strings)) = some o → varOf s = captureVariable o)
    (hview : BashView varOf l ⟨env.arrays, env.arrays (S "POSITIONALS")⟩)
    (hwhen : ∀ a ∈ os, ∀ w, a.cond = some w → ∀ ts, parseWhen isRegex w = .ok ts → (∃ e, Denotes ts e) ∧ ∀ c, .cmd c ∈ ts → condSafe c ∧ condLine c)
    (opt cur mode : Str) (Usable : ArgOpt → Prop)
    (hUsable : ∀ a, Usable a ↔ (∀ w, a.cond = some w → WhenTrue isRegex (holdsEach (fun a b => varOf a == varOf b) rx l) w) ∧ (a.optional = true → mode = S "WITH_OPTIONAL")) :
    (∀ a ∈ os, opt ∈ a.strings → Usable a → BashArms.call env text [opt, cur, mode] = some ([(clauseLines a.code, cur)], true)) ∧
    ((∀ a ∈ os, opt ∈ a.strings → ¬ Usable a) → BashArms.call env text [opt, cur, mode] = some ([], false)) := by
  let holds : Str → Bool := fun w => decide (WhenTrue isRegex (holdsEach (fun a b => varOf a == varOf b) rx l) w)
  have hcall := C104_as_modelled_partial isRegex pre hp options os f hf text htext hname hne hstr hnum hcode rx env henv l varOf hvar hview hwhen holds
    (fun a _ w _ => by simp [holds]) opt cur mode
  have hn : NotOnlyOptional os := by
    rcases hsome with h | ⟨a, ha, h⟩
    · exact .inl h
    · exact .inr ⟨a, ha, by rw [Option.isSome_iff_ne_none]; exact h⟩
  have hrun := completeOption_run (holds := holds) (opt := opt) (m := decide (mode = S "WITH_OPTIONAL")) hone hn
  have hu : ∀ a, a.usable holds (decide (mode = S "WITH_OPTIONAL")) ↔ Usable a := by
    intro a
    rw [hUsable]
    unfold ArgOpt.usable ArgOpt.met
    simp [holds]
  constructor
  · intro a ha hs h
    rw [hcall, hrun.1 a ha hs ((hu a).mpr h)]
    rfl
  · intro h
    rw [hcall, hrun.2 (fun a ha hs hx => h a ha hs ((hu a).mp hx))]
    rfl

/-- **C104, whether it is written** The function is written unless no option takes an argument. -/
theorem C104_written (isRegex : Str → Bool) (pre : Str) (options : List Opt) (os : List ArgOpt) (f : Str) (r : Option Str)
    (h : masterText isRegex pre options os f = .ok r) : r = none ↔ os = [] := by
  simp only [masterText, bind, Except.bind] at h
  cases hc : mapE (MStmt.text isRegex pre options) (masterOf os).2 with
  | error e => rw [hc] at h; cases h
  | ok code =>
    rw [hc] at h
    simp only at h
    have hlen : code = [] ↔ (masterOf os).2 = [] := by
      cases hm : (masterOf os).2 with
      | nil => rw [hm] at hc; simp only [mapE, Except.ok.injEq] at hc; simp [← hc]
      | cons s r =>
        rw [hm] at hc
        simp only [mapE, bind, Except.bind] at hc
        cases h1 : MStmt.text isRegex pre options s with
        | error e => rw [h1] at hc; cases hc
        | ok t =>
          cases h2 : mapE (MStmt.text isRegex pre options) r with
          | error e => rw [h1, h2] at hc; cases hc
          | ok ts =>
            rw [h1, h2] at hc
            simp only [Except.ok.injEq] at hc
            simp [← hc]
    rw [← master_ne, ← hlen]
    by_cases he : code = []
    · rw [if_pos (by simpa using he)] at h
      simp only [Except.ok.injEq] at h
      simp [← h, he]
    · rw [if_neg (by simpa using he)] at h
      simp only [Except.ok.injEq] at h
      simp [← h, he]

/-- If all arguments are optional and no option has a condition, then the function never runs any code, and yet succeeds: the argument of
such an option is not completed, whatever the mode (as in C66). -/
theorem C104_only_optional (isRegex : Str → Bool) (pre : Str) (hp : ∀ c ∈ pre, ZshLex.idChar c = true) (os : List ArgOpt) (hos : os ≠ [])
    (f : Str) (hf : isName f = true) (text : Str) (htext : masterText isRegex pre [] os f = .ok (some text))
    (hne : ∀ a ∈ os, a.strings ≠ []) (hstr : ∀ a ∈ os, ∀ s ∈ a.strings, s.head? = some '-' ∧ ∀ c ∈ s, PlainChar c)
    (hnum : NoNumericClash (fun w => ∃ a ∈ os, w ∈ a.strings)) (hcode : ∀ a ∈ os, CompleteCode a.code)
    (hall : ∀ a ∈ os, a.optional = true ∧ a.cond = none)
    (rx : Bool → Str → Str → Bool) (env : Env) (henv : env.call = bashHelperCall pre rx) (l : Line) (varOf : Str → Str)
    (hview : BashView varOf l ⟨env.arrays, env.arrays (S "POSITIONALS")⟩) (opt cur mode : Str) :
    BashArms.call env text [opt, cur, mode] = some ([], true) := by
  rw [C104_as_modelled_partial isRegex pre hp [] os f hf text htext (by simp) hne hstr hnum hcode rx env henv l varOf (by simp) hview
    (fun a ha w hw => by rw [(hall a ha).2] at hw; cases hw) (fun _ => true) (fun a ha w hw => by rw [(hall a ha).2] at hw; cases hw) opt cur mode,
    completeOption_onlyOptional hos]
  · rfl
  · rintro (⟨a, ha, h⟩ | ⟨a, ha, h⟩)
    · rw [(hall a ha).1] at h; cases h
    · rw [(hall a ha).2] at h; cases h

/-! ## Examples -/

/-- Options with arguments: two with the same code, one with a condition, and one whose argument is optional and has no completer. -/
def exampleArms : List ArgOpt := [
  { strings := [S "-o", S "--out"], optional := false, cond := none, code := S "files\n\necho \"$cur\"" },
  { strings := [S "--in"], optional := false, cond := none, code := S "files\n\necho \"$cur\"" },
  { strings := [S "--level"], optional := false, cond := some (S "has_option -v || positional_count '>' 1"), code := S "echo L" },
  { strings := [S "--color"], optional := true, cond := none, code := [] }]

/-- The same without the option that has a condition. -/
def exampleArmsPlain : List ArgOpt := exampleArms.filter (fun a => !a.cond.isSome)

def exampleArmsText : Str := S "_prog__complete_option() {
  local opt=\"$1\" cur=\"$2\" mode=\"$3\"

  case \"$opt\" in --level)
    if { (( ${#OPT_verbose[@]} )) || (( ${#POSITIONALS[@]} > 1 )); }; then
      echo L
      return 0
    fi;;
  esac

  case \"$opt\" in
    -o|--out|--in)
      files

      echo \"$cur\"
      return 0;;
  esac

  [[ \"$mode\" == WITH_OPTIONAL ]] || return 1

  case \"$opt\" in
    --color)
      return 0;;
  esac

  return 1
}"

def exampleArmsPlainText : Str := S "_prog__complete_option() {
  local opt=\"$1\" cur=\"$2\" mode=\"$3\" ret=0

  case \"$opt\" in
    -o|--out|--in)
      files

      echo \"$cur\";;
    *) ret=1;;
  esac

  (( ! ret )) && return 0
  [[ \"$mode\" == WITH_OPTIONAL ]] || return 1
  ret=0

  case \"$opt\" in
    --color);;
    *) ret=1;;
  esac

  return $ret
}"

theorem C104_example_text :
    (masterText (fun _ => true) (S "_prog") exampleOffers.data.options exampleArms (S "_prog__complete_option")).toOption = some (some exampleArmsText) ∧
    (masterText (fun _ => true) (S "_prog") exampleOffers.data.options exampleArmsPlain (S "_prog__complete_option")).toOption = some (some exampleArmsPlainText) := by
  constructor
  · have h : (masterOf exampleArms).2 = [.ifCase [S "--level"] (S "has_option -v || positional_count '>' 1") (S "echo L"),
        .cases [([S "-o", S "--out", S "--in"], S "files\n\necho \"$cur\"")], .mode, .cases [([S "--color"], [])]] := by decide +kernel
    simp only [masterText, h, mapE, MStmt.text, example_when]
    decide +kernel
  · decide +kernel

/-- The example meets the conditions of `C104_completed_partial`. -/
theorem C104_example_hypotheses :
    (∀ o ∈ exampleOffers.data.options, isName (captureVariable o) = true) ∧ isName (S "_prog__complete_option") = true ∧
    (∀ a ∈ exampleArms, a.strings ≠ []) ∧ (∀ a ∈ exampleArms, ∀ s ∈ a.strings, s.head? = some '-' ∧ ∀ c ∈ s, PlainChar c) ∧
    NoNumericClash (fun w => ∃ a ∈ exampleArms, w ∈ a.strings) ∧ (∀ a ∈ exampleArms, CompleteCode a.code) ∧
    (∀ a ∈ exampleArms, ∀ b ∈ exampleArms, ∀ s, s ∈ a.strings → s ∈ b.strings → a = b) ∧
    (∃ a ∈ exampleArms, a.optional = false) ∧ (∃ a ∈ exampleArms, a.cond ≠ none) ∧
    ∀ a ∈ exampleArms, ∀ w, a.cond = some w → ∀ ts, parseWhen (fun _ => true) w = .ok ts → (∃ e, Denotes ts e) ∧ ∀ c, .cmd c ∈ ts → condSafe c ∧ condLine c := by
  refine ⟨by decide +kernel, by decide +kernel, by decide +kernel, by unfold PlainChar; decide +kernel, ?_, ?_, ?_, ⟨_, List.mem_cons_self, rfl⟩, by decide +kernel, ?_⟩
  · have h := C95_no_numbers (exampleArms.flatMap (·.strings)) (by decide +kernel)
    intro a x y hx hy
    exact h a x y (List.mem_flatMap.mpr hx) (List.mem_flatMap.mpr hy)
  · intro a ha
    simp only [exampleArms, List.mem_cons, List.not_mem_nil, or_false] at ha
    rcases ha with rfl | rfl | rfl | rfl
    · exact .inr ⟨by decide +kernel, S "echo \"$cur\"", '"', by decide +kernel, by decide +kernel, by decide +kernel, by decide +kernel, by decide +kernel, by decide +kernel, by decide +kernel⟩
    · exact .inr ⟨by decide +kernel, S "echo \"$cur\"", '"', by decide +kernel, by decide +kernel, by decide +kernel, by decide +kernel, by decide +kernel, by decide +kernel, by decide +kernel⟩
    · exact .inr ⟨by decide +kernel, S "echo L", 'L', by decide +kernel, by decide +kernel, by decide +kernel, by decide +kernel, by decide +kernel, by decide +kernel, by decide +kernel⟩
    · exact .inl rfl
  · have h : ∀ a ∈ exampleArms, ∀ b ∈ exampleArms, ∀ s ∈ a.strings, s ∈ b.strings → a = b := by decide +kernel
    exact fun a ha b hb s hs => h a ha b hb s hs
  · intro a ha w hw ts hts
    have : w = S "has_option -v || positional_count '>' 1" := by
      simp only [exampleArms, List.mem_cons, List.not_mem_nil, or_false] at ha
      rcases ha with rfl | rfl | rfl | rfl <;> simp at hw
      exact hw.symm
    subst this
    rw [example_when] at hts
    cases hts
    refine ⟨⟨_, .or (.pipe (.cmd _)) (.cmd _)⟩, ?_⟩
    intro c hc
    simp at hc
    rcases hc with rfl | rfl <;> simp [condSafe, condLine]

end CC
