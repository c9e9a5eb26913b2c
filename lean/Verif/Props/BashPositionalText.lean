import Verif.Lemmas.BashBlocksRun
import Verif.Spec.PositionalTurn
/-!
# C103: running the text that completes positionals

`Spec/BashBlocks.lean` reads and runs the Bash text; `Spec/PositionalTurn.lean` says which positional is to be completed.
-/

namespace CC

open ShellGrammar (Denotes Tok parse_complete)
open WhenSpec
open BashText (isName)
open BashOffers (Env)
open OffersLex (stateOf condLine)

namespace BlocksLex

theorem codeLines_eq (code : Str) : codeLines code = indentedLines code := by
  unfold codeLines indentedLines
  cases code with
  | nil => rfl
  | cons x r =>
    rw [if_neg (by simp), if_neg (by simp), indent_lines]
    congr 1
    funext l
    unfold stripTruthy
    cases hs : strip l with
    | nil => simp
    | cons a b => simp

/-- A block: what stands in front of `{`, its code, and whether it is entered. -/
def GoodBlock (env : Env) (b : Str × Str × Bool) : Prop :=
  '\n' ∉ b.1 ∧ ∃ e, BashBlocks.condition b.1 = some e ∧ BashBlocks.succeeds env e = some b.2.2

theorem run_good {env : Env} (bs : List (Str × Str × Bool)) (h : ∀ b ∈ bs, GoodBlock env b) :
    BashBlocks.runText env (joinWith (S "\n\n") (bs.map (fun b => b.1 ++ blockText b.2.1))) =
      some (((bs.map (·.2)).find? (fun x => x.2)).map (fun x => codeLines x.1)) := by
  have e := blocks_text (bs.map (fun b => (b.1, b.2.1))) (by
    intro b hb
    obtain ⟨x, hx, rfl⟩ := List.mem_map.mp hb
    exact (h x hx).1)
  simp only [List.map_map, Function.comp_def] at e
  unfold BashBlocks.runText
  rw [e, Option.bind_some, run_blocks env bs (fun b hb => (h b hb).2), List.find?_map, Option.map_map]
  rfl

/-- The text of `(( ))`. -/
theorem head_text (parents : List Cmd) (ps : List Pos) :
    S "(( " ++ joinWith (S " || ") (ps.map (positionText parents)) ++ S " ))" = S "((" ++ positionsText parents ps ++ S "))" := by
  simp [S, positionsText]

theorem head_nl (parents : List Cmd) (ps : List Pos) : '\n' ∉ S "((" ++ positionsText parents ps ++ S "))" := by
  simp only [List.mem_append, not_or]
  exact ⟨⟨by decide +kernel, positionsText_not parents ps (by simp)⟩, by decide +kernel⟩

theorem head_good (env : Env) (parents : List Cmd) {ps : List Pos} (hne : ps ≠ []) (code : Str) :
    GoodBlock env (S "(( " ++ joinWith (S " || ") (ps.map (positionText parents)) ++ S " )) && ", code, ps.any (here parents (env.arrays (S "POSITIONALS")).length)) := by
  have e : S "(( " ++ joinWith (S " || ") (ps.map (positionText parents)) ++ S " )) && " = (S "((" ++ positionsText parents ps ++ S "))") ++ S " && " := by
    rw [← head_text]; simp [S]
  constructor
  · simp only
    rw [e, List.mem_append, not_or]
    exact ⟨head_nl parents ps, by decide +kernel⟩
  · simp only
    rw [e]
    have hr : ZshLex.Reads (S "((" ++ positionsText parents ps ++ S "))") ([Tok.cmd ()].flatMap (OffersLex.pieceOf (fun _ => .arith (positionsText parents ps)))) :=
      ZshLex.reads_arith _ (positionsText_not parents ps (by simp))
    exact ⟨_, condition_text (fun _ => .arith (positionsText parents ps)) (fun _ => trivial) hr (.pipe (.cmd _)), arithmetic_positions env parents hne⟩

/-- The text of a place and of a condition. -/
theorem when_good {isRegex : Str → Bool} {pre : Str} (hp : ∀ c ∈ pre, ZshLex.idChar c = true) {options : List Opt}
    (hname : ∀ o ∈ options, isName (captureVariable o) = true)
    {varOf : Str → Str} (hvar : ∀ s o, options.find? (fun o => decide (s ∈ o.strings)) = some o → varOf s = captureVariable o)
    (rx : Bool → Str → Str → Bool) (env : Env) (henv : env.call = bashHelperCall pre rx) {l : Line} (hview : BashView varOf l (stateOf env))
    {w : Str} {ts : List (Tok Cond)} (hpw : parseWhen isRegex w = .ok ts) (hd : ∃ e, Denotes ts e) (hs : ∀ c, .cmd c ∈ ts → condSafe c ∧ condLine c)
    {wt : Str} (hx : bashWhenText pre (bashResolve options) ts = .ok wt) (parents : List Cmd) (p : Pos) (code : Str) :
    ∃ v, (v = true ↔ WhenTrue isRegex (holdsEach (fun a b => varOf a == varOf b) rx l) w) ∧
      GoodBlock env (S "(( " ++ positionText parents p ++ S " )) && " ++ wt ++ S " && ", code, here parents (env.arrays (S "POSITIONALS")).length p && v) := by
  obtain ⟨ex, hd⟩ := hd
  obtain ⟨bc, hg⟩ := OffersLex.bashWhen_code hx
  have hgn := OffersLex.good_resolve hname
  have htsne : ts ≠ [] := by
    rintro rfl
    have := parse_complete hd
    simp [ShellGrammar.parse, ShellGrammar.parseGo] at this
  obtain ⟨w1, w2⟩ := OffersLex.bashWhen_reads hp hgn htsne (fun k hk => (hs k hk).2) hx hg
  have hcg := OffersLex.code_good hgn (fun k hk => (hs k hk).2) hg
  let hv : Cond → Bool := fun c => open Classical in decide (holdsEach (fun a b => varOf a == varOf b) rx l c)
  have hb := braces_context hd (blockValue rx (stateOf env) (here parents (env.arrays (S "POSITIONALS")).length p)) hv (genWithBraces_lift hg)
    (by
      intro c a hm hga
      unfold liftGen at hga
      cases hbc : bashCond (bashResolve options) c with
      | error x => simp [hbc, Except.map] at hga
      | ok a0 =>
        simp only [hbc, Except.map, Except.ok.injEq] at hga
        subst hga
        obtain ⟨e', d, hv⟩ := bash_prim (bashResolve_resolves hvar) rx hview c (hs c hm).1 a0 hbc
        exact ⟨liftExpr e', lift_denotes d, by rw [liftExpr_block, hv]⟩)
  obtain ⟨e2, d2, v2⟩ := hb.2 [Tok.cmd (OSPrim.noneSet [])] _ (.pipe (.cmd _))
  refine ⟨ex.eval hv, ?_, ?_⟩
  · constructor
    · intro h
      exact ⟨ts, ex, hpw, hd, hv, fun c => by simp [hv], h⟩
    · rintro ⟨ts', e', h1, h2, v, h3, h4⟩
      rw [hpw] at h1
      cases h1
      have q1 := parse_complete hd
      have q2 := parse_complete h2
      rw [q1] at q2
      cases q2
      have : v = hv := by
        funext c
        rw [Bool.eq_iff_iff, h3]
        simp [hv]
      rw [← this]
      exact h4
  · have e : S "(( " ++ positionText parents p ++ S " )) && " ++ wt ++ S " && " = ((S "((" ++ positionsText parents [p] ++ S "))") ++ S " && " ++ wt) ++ S " && " := by
      simp [S, positionsText, joinWith]
    constructor
    · simp only
      rw [e]
      simp only [List.mem_append, not_or]
      have := head_nl parents [p]
      simp only [List.mem_append, not_or] at this
      exact ⟨⟨⟨this, by decide +kernel⟩, w2⟩, by decide +kernel⟩
    · simp only
      rw [e]
      have hr := OffersLex.reads_andText (ZshLex.reads_arith (positionsText parents [p]) (positionsText_not parents [p] (by simp))) w1
      rw [← block_pieces pre (positionsText parents [p])] at hr
      refine ⟨_, condition_text (blockSimple pre (positionsText parents [p])) (blockSimple_plain pre _) (toks := [Tok.cmd (OSPrim.noneSet [])] ++ .and :: bc.map liftTok) ?_ d2, ?_⟩
      · rw [List.flatMap_append, List.flatMap_cons (x := Tok.and)]
        exact hr
      · rw [succeeds_mapped env (blockSimple pre (positionsText parents [p])) (blockValue rx (stateOf env) (here parents (env.arrays (S "POSITIONALS")).length p)) d2, v2]
        · rfl
        · intro k hk
          simp only [List.cons_append, List.nil_append, List.mem_cons, Tok.cmd.injEq, reduceCtorEq, false_or] at hk
          rcases hk with rfl | hk
          · show BashBlocks.arithmetic env (positionsText parents [p]) = _
            rw [arithmetic_positions env parents (by simp)]
            simp [blockValue]
          · obtain ⟨t, ht, e⟩ := List.mem_map.mp hk
            cases t with
            | cmd q =>
              simp only [liftTok, Tok.cmd.injEq] at e
              subst e
              exact simple_when hp rx env henv q (hcg _ (List.mem_map.mpr ⟨_, ht, rfl⟩))
            | bang | lpar | rpar | and | or => cases e

theorem here_iff (parents : List Cmd) (count : Nat) (p : Pos) : here parents count p = true ↔
    (p.repeatable = false ∧ count = positionalNum parents p.number ∨ p.repeatable = true ∧ positionalNum parents p.number ≤ count) := by
  unfold here
  cases p.repeatable <;> simp

theorem commandArg_iff (p : Pos) : (!p.isCommandArg) = true ↔ p.complete.head? ≠ some (.str (S "command_arg")) := by
  unfold Pos.isCommandArg
  cases hb : (p.complete.head? == some (.str (S "command_arg"))) with
  | true => simp only [Bool.not_true, Bool.false_eq_true, false_iff]; exact fun h => h (eq_of_beq hb)
  | false => simp only [Bool.not_false, true_iff]; exact fun h => by rw [h] at hb; revert hb; decide +kernel

theorem whenSet_some {p : Pos} {w : Str} : p.whenSet = some w ↔ p.when_ = some w ∧ w ≠ [] := by
  unfold Pos.whenSet
  rw [Option.filter_eq_some_iff]
  simp

/-- Blocks that are made one by one. -/
theorem blocks_mapE {α : Type} {env : Env} {f : α → Except Err Str} {q : α → Str × Bool} : ∀ {l : List α} {bs : List Str},
    mapE f l = .ok bs → (∀ x ∈ l, ∀ t, f x = .ok t → ∃ h, t = h ++ blockText (q x).1 ∧ GoodBlock env (h, q x)) →
    ∃ B : List (Str × Str × Bool), bs = B.map (fun b => b.1 ++ blockText b.2.1) ∧ B.map (·.2) = l.map q ∧ ∀ b ∈ B, GoodBlock env b
  | [], bs, h, _ => by
    simp only [mapE, Except.ok.injEq] at h
    subst h
    exact ⟨[], rfl, rfl, by simp⟩
  | x :: l, bs, h, hg => by
    simp only [mapE, bind, Except.bind] at h
    cases hx : f x with
    | error e => rw [hx] at h; cases h
    | ok t =>
      rw [hx] at h
      simp only at h
      cases hl : mapE f l with
      | error e => rw [hl] at h; cases h
      | ok ts =>
        rw [hl] at h
        simp only [Except.ok.injEq] at h
        subst h
        obtain ⟨B, h1, h2, h3⟩ := blocks_mapE hl (fun y hy => hg y (by simp [hy]))
        obtain ⟨hd, e, hgd⟩ := hg x (by simp) t hx
        refine ⟨(hd, q x) :: B, by simp [e, h1], by simp [h2], ?_⟩
        intro b hb
        rcases List.mem_cons.mp hb with rfl | hb
        · exact hgd
        · exact h3 b hb

theorem joinWith_nonempty {s : Str} : ∀ {l : List Str}, l ≠ [] → (∀ x ∈ l, x ≠ []) → joinWith s l ≠ []
  | [], h, _ => absurd rfl h
  | [x], _, hx => by simpa [joinWith] using hx x (by simp)
  | x :: y :: r, _, hx => by
    rw [joinWith]
    intro h
    exact hx x (by simp) (List.append_eq_nil_iff.mp (List.append_eq_nil_iff.mp h).1).1

theorem blockText_nonempty (h code : Str) : h ++ blockText code ≠ [] := by
  unfold blockText
  split <;> simp [S]

theorem filter_join (B : List (Str × Str × Bool)) (sub : List (Str × Str × Bool)) :
    joinWith (S "\n\n") ((joinWith (S "\n\n") (B.map (fun b => b.1 ++ blockText b.2.1)) :: sub.map (fun b => b.1 ++ blockText b.2.1)).filter (fun t => !t.isEmpty)) =
      joinWith (S "\n\n") ((B ++ sub).map (fun b => b.1 ++ blockText b.2.1)) := by
  have hne : ∀ L : List (Str × Str × Bool), ∀ x ∈ L.map (fun b => b.1 ++ blockText b.2.1), x ≠ [] := by
    intro L x hx
    obtain ⟨b, -, rfl⟩ := List.mem_map.mp hx
    exact blockText_nonempty _ _
  have hsub : (sub.map (fun b => b.1 ++ blockText b.2.1)).filter (fun t => !t.isEmpty) = sub.map (fun b => b.1 ++ blockText b.2.1) := by
    rw [List.filter_eq_self]
    intro x hx
    simpa using hne sub x hx
  rw [List.filter_cons, hsub, List.map_append]
  cases B with
  | nil => simp [joinWith]
  | cons b B =>
    rw [if_pos (by simpa using joinWith_nonempty (s := S "\n\n") (by simp) (hne (b :: B)))]
    cases sub with
    | nil => simp [joinWith]
    | cons c r => rw [joinWith_append _ _ _ (by simp) (by simp)]; simp [joinWith]

open Classical in
/-- The text enters the first block whose condition is true. -/
theorem run_pairs (isRegex : Str → Bool) (pre : Str) (hp : ∀ c ∈ pre, ZshLex.idChar c = true) (parents : List Cmd) (c : Cmd)
    (code : Pos → Str) (subCode text : Str)
    (htext : positionalsText isRegex pre parents c code subCode = .ok text)
    (hname : ∀ o ∈ c.data.options, isName (captureVariable o) = true)
    (rx : Bool → Str → Str → Bool) (env : Env) (henv : env.call = bashHelperCall pre rx) (l : Line) (varOf : Str → Str)
    (hvar : ∀ s o, c.data.options.find? (fun o => decide (s ∈ o.strings)) = some o → varOf s = captureVariable o)
    (hview : BashView varOf l ⟨env.arrays, env.arrays (S "POSITIONALS")⟩)
    (hwhen : ∀ p ∈ c.data.positionals, ∀ w, p.when_ = some w → w ≠ [] → ∀ ts, parseWhen isRegex w = .ok ts →
      (∃ e, Denotes ts e) ∧ ∀ c, .cmd c ∈ ts → condSafe c ∧ condLine c)
    (Turn : Pos → Prop) (hTurn : ∀ p, Turn p ↔ PositionalTurn parents isRegex (holdsEach (fun a b => varOf a == varOf b) rx l) l.positionals.length p) :
    ∃ P : List (Str × Bool), BashBlocks.runText env text = some (((P ++ (match c.sub with
        | some n => [(subCode, decide (l.positionals.length = positionalNum parents n))]
        | none => [])).find? (fun x => x.2)).map (fun x => codeLines x.1)) ∧
      (∀ x ∈ P, x.2 = true → ∃ p ∈ c.data.positionals, Turn p ∧ x.1 = code p) ∧
      (∀ p ∈ c.data.positionals, Turn p → ∃ x ∈ P, x.2 = true) ∧
      ((∃ p ∈ c.data.positionals, ∃ w, p.when_ = some w ∧ w ≠ []) →
        P = (c.data.positionals.filter (fun p => !p.isCommandArg)).map (fun p => (code p, decide (Turn p)))) ∧
      ((¬ ∃ p ∈ c.data.positionals, ∃ w, p.when_ = some w ∧ w ≠ []) →
        P = (groupBy code (c.data.positionals.filter (fun p => !p.isCommandArg))).map (fun g => (g.1, g.2.any (here parents l.positionals.length)))) := by
  have hcount : (env.arrays (S "POSITIONALS")).length = l.positionals.length := by
    have := hview.positionals
    simp only at this
    rw [this]
  let ps := c.data.positionals.filter (fun p => !p.isCommandArg)
  have hmem : ∀ p, p ∈ ps ↔ p ∈ c.data.positionals ∧ p.complete.head? ≠ some (.str (S "command_arg")) := by
    intro p
    rw [List.mem_filter, commandArg_iff]
  simp only [positionalsText, bind, Except.bind] at htext
  cases hbs : positionalBlocks isRegex pre parents c code with
  | error e => rw [hbs] at htext; cases htext
  | ok bs =>
    rw [hbs] at htext
    simp only [Except.ok.injEq] at htext
    -- the blocks of the positionals
    have hB : ∃ B : List (Str × Str × Bool), bs = B.map (fun b => b.1 ++ blockText b.2.1) ∧ (∀ b ∈ B, GoodBlock env b) ∧
        (∀ x ∈ B.map (·.2), x.2 = true → ∃ p ∈ c.data.positionals, Turn p ∧ x.1 = code p) ∧
        (∀ p ∈ c.data.positionals, Turn p → ∃ x ∈ B.map (·.2), x.2 = true) ∧
        ((∃ p ∈ c.data.positionals, ∃ w, p.when_ = some w ∧ w ≠ []) → B.map (·.2) = ps.map (fun p => (code p, decide (Turn p)))) ∧
        ((¬ ∃ p ∈ c.data.positionals, ∃ w, p.when_ = some w ∧ w ≠ []) → B.map (·.2) = (groupBy code ps).map (fun g => (g.1, g.2.any (here parents l.positionals.length)))) := by
      unfold positionalBlocks at hbs
      simp only at hbs
      split at hbs
      · rename_i hyes
        have hgood : ∀ p ∈ ps, ∀ t, positionalWhenBlock isRegex pre parents c code p = .ok t →
            ∃ h, t = h ++ blockText (code p, decide (Turn p)).1 ∧ GoodBlock env (h, (code p, decide (Turn p))) := by
          intro p hpm t ht
          obtain ⟨hpc, hpa⟩ := (hmem p).mp hpm
          simp only [positionalWhenBlock, bind, Except.bind] at ht
          cases hw : p.whenSet with
          | none =>
            rw [hw] at ht
            simp only [Except.ok.injEq] at ht
            refine ⟨_, ht.symm, ?_⟩
            have hg := head_good env parents (ps := [p]) (by simp) (code p)
            have ev : decide (Turn p) = [p].any (here parents (env.arrays (S "POSITIONALS")).length) := by
              rw [Bool.eq_iff_iff, decide_eq_true_eq, hTurn, List.any_cons, List.any_nil, Bool.or_false, here_iff, hcount]
              constructor
              · exact fun h => h.2.1
              · refine fun h => ⟨hpa, h, fun w h1 h2 => ?_⟩
                rw [whenSet_some.mpr ⟨h1, h2⟩] at hw
                cases hw
            rw [ev]
            exact hg
          | some w =>
            rw [hw] at ht
            simp only at ht
            obtain ⟨hw1, hw2⟩ := whenSet_some.mp hw
            cases hpw : parseWhen isRegex w with
            | error e => rw [hpw] at ht; cases ht
            | ok ts =>
              rw [hpw] at ht
              simp only at ht
              cases hx : bashWhenText pre (bashResolve c.data.options) ts with
              | error e => rw [hx] at ht; cases ht
              | ok wt =>
                rw [hx] at ht
                simp only [Except.ok.injEq] at ht
                refine ⟨_, ht.symm, ?_⟩
                obtain ⟨hd, hs⟩ := hwhen p hpc w hw1 hw2 ts hpw
                obtain ⟨v, hv, hg⟩ := when_good hp hname hvar rx env henv hview hpw hd hs hx parents p (code p)
                have ev : decide (Turn p) = (here parents (env.arrays (S "POSITIONALS")).length p && v) := by
                  rw [Bool.eq_iff_iff, decide_eq_true_eq, hTurn, Bool.and_eq_true, here_iff, hcount, hv]
                  constructor
                  · exact fun h => ⟨h.2.1, h.2.2 w hw1 hw2⟩
                  · refine fun h => ⟨hpa, h.1, fun w' h1 h2 => ?_⟩
                    rw [hw1] at h1
                    cases h1
                    exact h.2
                rw [ev]
                exact hg
        obtain ⟨B, h1, h2, h3⟩ := blocks_mapE (q := fun p => (code p, decide (Turn p))) hbs hgood
        refine ⟨B, h1, h3, ?_, ?_, fun _ => h2, fun hn => ?_⟩
        · intro x hx hv
          rw [h2] at hx
          obtain ⟨p, hpm, rfl⟩ := List.mem_map.mp hx
          exact ⟨p, ((hmem p).mp hpm).1, by simpa using hv, rfl⟩
        · intro p hpm ht
          rw [h2]
          exact ⟨_, List.mem_map.mpr ⟨p, (hmem p).mpr ⟨hpm, ((hTurn p).mp ht).1⟩, rfl⟩, by simpa using ht⟩
        · obtain ⟨p, hpm, hsome⟩ := List.any_eq_true.mp hyes
          obtain ⟨w, hw⟩ := Option.isSome_iff_exists.mp hsome
          exact absurd ⟨p, hpm, w, whenSet_some.mp hw⟩ hn
      · rename_i hno
        have hno' : ∀ p ∈ c.data.positionals, ∀ w, p.when_ = some w → w = [] := by
          intro p hpm w hw
          by_cases h : w = []
          · exact h
          · exact absurd (List.any_eq_true.mpr ⟨p, hpm, by rw [whenSet_some.mpr ⟨hw, h⟩]; rfl⟩) hno
        have hturn : ∀ p ∈ ps, Turn p ↔ here parents (env.arrays (S "POSITIONALS")).length p = true := by
          intro p hpm
          obtain ⟨hpc, hpa⟩ := (hmem p).mp hpm
          rw [hTurn, here_iff, hcount]
          exact ⟨fun h => h.2.1, fun h => ⟨hpa, h, fun w h1 h2 => absurd (hno' p hpc w h1) h2⟩⟩
        simp only [Except.ok.injEq] at hbs
        have hgroup : ∀ g ∈ groupBy code ps, g.2 = ps.filter (fun p => decide (code p = g.1)) ∧ g.2 ≠ [] := by
          intro g hg
          have h1 := C40_group_by_groups code ps g.1 g.2 hg
          refine ⟨h1, ?_⟩
          obtain ⟨p, hpm, hk⟩ := ((C40_group_by_keys code ps).2.1 g.1).mp (List.mem_map.mpr ⟨g, hg, rfl⟩)
          intro he
          have : p ∈ g.2 := by rw [h1]; simp [hpm, hk]
          rw [he] at this
          cases this
        refine ⟨(groupBy code ps).map (fun g => (S "(( " ++ joinWith (S " || ") (g.2.map (positionText parents)) ++ S " )) && ", g.1,
          g.2.any (here parents (env.arrays (S "POSITIONALS")).length))), ?_, ?_, ?_, ?_, ?_, ?_⟩
        · rw [← hbs, List.map_map]
          rfl
        · intro b hb
          obtain ⟨g, hg, rfl⟩ := List.mem_map.mp hb
          exact head_good env parents (hgroup g hg).2 g.1
        · intro x hx hv
          rw [List.map_map] at hx
          obtain ⟨g, hg, rfl⟩ := List.mem_map.mp hx
          obtain ⟨p, hpm, hh⟩ := List.any_eq_true.mp hv
          rw [(hgroup g hg).1, List.mem_filter, decide_eq_true_eq] at hpm
          exact ⟨p, ((hmem p).mp hpm.1).1, (hturn p hpm.1).mpr hh, hpm.2.symm⟩
        · intro p hpm ht
          have hps := (hmem p).mpr ⟨hpm, ((hTurn p).mp ht).1⟩
          obtain ⟨g, hg, hk⟩ := List.mem_map.mp (((C40_group_by_keys code ps).2.1 (code p)).mpr ⟨p, hps, rfl⟩)
          rw [List.map_map]
          refine ⟨_, List.mem_map.mpr ⟨g, hg, rfl⟩, List.any_eq_true.mpr ⟨p, ?_, (hturn p hps).mp ht⟩⟩
          rw [(hgroup g hg).1, List.mem_filter, decide_eq_true_eq]
          exact ⟨hps, hk.symm⟩
        · rintro ⟨p, hpm, w, h1, h2⟩
          exact absurd (hno' p hpm w h1) h2
        · intro _
          rw [List.map_map, ← hcount]
          rfl
    obtain ⟨B, hBt, hBg, hB⟩ := hB
    -- the block of the subcommands
    have hS : ∃ sub : List (Str × Str × Bool), subcommandBlocks parents subCode c.sub = sub.map (fun b => b.1 ++ blockText b.2.1) ∧
        (∀ b ∈ sub, GoodBlock env b) ∧ sub.map (·.2) = (match c.sub with | some n => [(subCode, decide (l.positionals.length = positionalNum parents n))] | none => []) := by
      cases c.sub with
      | none => exact ⟨[], rfl, by simp, rfl⟩
      | some n =>
        have hg := head_good env parents (ps := [{ number := n }]) (by simp) subCode
        refine ⟨[(_, _, _)], ?_, fun b hb => by simp only [List.mem_singleton] at hb; rw [hb]; exact hg, ?_⟩
        · simp [subcommandBlocks, subcommandBlock, joinWith, positionText, S]
        · simp only [List.map_cons, List.map_nil, List.any_cons, List.any_nil, Bool.or_false, List.cons.injEq, and_true, Prod.mk.injEq, true_and]
          rw [Bool.eq_iff_iff, here_iff, decide_eq_true_eq, hcount]
          simp
    obtain ⟨sub, hs1, hs2, hs3⟩ := hS
    rw [hs1, hBt, filter_join] at htext
    have hrun := run_good (env := env) (B ++ sub) (by
      intro b hb
      rcases List.mem_append.mp hb with hb | hb
      · exact hBg b hb
      · exact hs2 b hb)
    rw [htext, List.map_append, hs3] at hrun
    exact ⟨B.map (·.2), hrun, hB⟩

end BlocksLex

open BlocksLex

open Classical in
/-- **C103** For every command, every state of the arrays and every code for the positionals: Bash can read the generated text. Let
`count` be the number of positional words, with the one at the cursor. If a positional may be completed, the text runs the code of such a
positional, and of the first one if a positional has a condition; otherwise, if the name of a subcommand is expected, it runs the code that
completes the names; in both cases the function returns 0. Otherwise the text does nothing. Partial: the names of the arrays are names
of variables, the values in `when` have no line breaks, `when` is as in C08, and the codes are complete commands (`Spec/BashBlocks.lean`). -/
theorem C103_completed_partial (isRegex : Str → Bool) (pre : Str) (hp : ∀ c ∈ pre, ZshLex.idChar c = true) (parents : List Cmd) (c : Cmd)
    (code : Pos → Str) (subCode text : Str)
    (htext : positionalsText isRegex pre parents c code subCode = .ok text)
    (hname : ∀ o ∈ c.data.options, isName (captureVariable o) = true)
    (rx : Bool → Str → Str → Bool) (env : Env) (henv : env.call = bashHelperCall pre rx) (l : Line) (varOf : Str → Str)
    (hvar : ∀ s o, c.data.options.find? (fun o => decide (s ∈ o.strings)) = some o → varOf s = captureVariable o)
    (hview : BashView varOf l ⟨env.arrays, env.arrays (S "POSITIONALS")⟩)
    (hwhen : ∀ p ∈ c.data.positionals, ∀ w, p.when_ = some w → w ≠ [] → ∀ ts, parseWhen isRegex w = .ok ts →
      (∃ e, Denotes ts e) ∧ ∀ c, .cmd c ∈ ts → condSafe c ∧ condLine c)
    (Turn : Pos → Prop) (hTurn : ∀ p, Turn p ↔ PositionalTurn parents isRegex (holdsEach (fun a b => varOf a == varOf b) rx l) l.positionals.length p) :
    ∃ r, BashBlocks.runText env text = some r ∧
      (∀ ls, r = some ls → (∃ p ∈ c.data.positionals, Turn p ∧ ls = indentedLines (code p)) ∨
        (∀ p ∈ c.data.positionals, ¬ Turn p) ∧ (∃ n, c.sub = some n ∧ l.positionals.length = positionalNum parents n) ∧ ls = indentedLines subCode) ∧
      (r = none ↔ (∀ p ∈ c.data.positionals, ¬ Turn p) ∧ ∀ n, c.sub = some n → l.positionals.length ≠ positionalNum parents n) ∧
      ((∃ p ∈ c.data.positionals, ∃ w, p.when_ = some w ∧ w ≠ []) → ∀ before p after, c.data.positionals = before ++ p :: after →
        Turn p → (∀ q ∈ before, ¬ Turn q) → r = some (indentedLines (code p))) := by
  obtain ⟨P, hrun, hB1, hB2, hB3, -⟩ := run_pairs isRegex pre hp parents c code subCode text htext hname rx env henv l varOf hvar hview hwhen Turn hTurn
  refine ⟨_, hrun, ?_, ?_, ?_⟩
  · intro ls hls
    rw [Option.map_eq_some_iff] at hls
    obtain ⟨x, hx, rfl⟩ := hls
    rw [List.find?_append] at hx
    cases hf : (P).find? (fun x => x.2) with
    | some y =>
      rw [hf] at hx
      simp only [Option.some_or, Option.some.injEq] at hx
      subst hx
      obtain ⟨p, h1, h2, h3⟩ := hB1 y (List.mem_of_find?_eq_some hf) (List.find?_some hf)
      exact .inl ⟨p, h1, h2, by rw [h3, codeLines_eq]⟩
    | none =>
      rw [hf] at hx
      simp only [Option.none_or] at hx
      right
      refine ⟨fun p hpm ht => ?_, ?_⟩
      · obtain ⟨y, hy, hv⟩ := hB2 p hpm ht
        exact absurd hv (List.find?_eq_none.mp hf y hy)
      · cases hc : c.sub with
        | none => rw [hc] at hx; cases hx
        | some n =>
          rw [hc] at hx
          have h1 := List.mem_of_find?_eq_some hx
          have h2 := List.find?_some hx
          simp only [List.mem_singleton] at h1
          subst h1
          exact ⟨⟨n, rfl, by simpa using h2⟩, codeLines_eq subCode⟩
  · rw [Option.map_eq_none_iff, List.find?_eq_none]
    constructor
    · intro h
      refine ⟨fun p hpm ht => ?_, fun n hn hcn => ?_⟩
      · obtain ⟨y, hy, hv⟩ := hB2 p hpm ht
        exact absurd hv (h y (List.mem_append.mpr (.inl hy)))
      · refine absurd ?_ (h (subCode, decide (l.positionals.length = positionalNum parents n)) ?_)
        · simpa using hcn
        · rw [hn]; simp
    · rintro ⟨h1, h2⟩ x hx hv
      rcases List.mem_append.mp hx with hx | hx
      · obtain ⟨p, hpm, ht, -⟩ := hB1 x hx hv
        exact h1 p hpm ht
      · cases hc : c.sub with
        | none => rw [hc] at hx; cases hx
        | some n =>
          rw [hc] at hx
          simp only [List.mem_singleton] at hx
          subst hx
          exact h2 n hc (by simpa using hv)
  · intro hw before p after hpos ht hbefore
    rw [hB3 hw, List.find?_append]
    have : ((c.data.positionals.filter (fun p => !p.isCommandArg)).map (fun p => (code p, decide (Turn p)))).find? (fun x => x.2) = some (code p, true) := by
      rw [List.find?_map]
      have hf : (c.data.positionals.filter (fun p => !p.isCommandArg)).find? ((fun x : Str × Bool => x.2) ∘ (fun p => (code p, decide (Turn p)))) = some p := by
        have e : c.data.positionals.filter (fun p => !p.isCommandArg) = before.filter (fun p => !p.isCommandArg) ++ p :: after.filter (fun p => !p.isCommandArg) := by
          rw [hpos, List.filter_append, List.filter_cons, if_pos ((commandArg_iff p).mpr ((hTurn p).mp ht).1)]
        rw [e, List.find?_append, List.find?_eq_none.mpr, Option.none_or, List.find?_cons]
        · simp [ht]
        · intro q hq
          simpa using hbefore q (List.mem_filter.mp hq).1
      rw [hf]
      simp [ht]
    rw [this]
    simp [codeLines_eq]

open Classical in
/-- **C103, as in C67** What the text runs is what the model of C67 runs (`runPositionals`), so that C67 is about the generated text. -/
theorem C103_as_modelled_partial (isRegex : Str → Bool) (pre : Str) (hp : ∀ c ∈ pre, ZshLex.idChar c = true) (parents : List Cmd) (c : Cmd)
    (E : BEnv) (subCode text : Str)
    (htext : positionalsText isRegex pre parents c (E.posCode c) subCode = .ok text)
    (hname : ∀ o ∈ c.data.options, isName (captureVariable o) = true)
    (rx : Bool → Str → Str → Bool) (env : Env) (henv : env.call = bashHelperCall pre rx) (l : Line) (varOf : Str → Str)
    (hvar : ∀ s o, c.data.options.find? (fun o => decide (s ∈ o.strings)) = some o → varOf s = captureVariable o)
    (hview : BashView varOf l ⟨env.arrays, env.arrays (S "POSITIONALS")⟩)
    (hwhen : ∀ p ∈ c.data.positionals, ∀ w, p.when_ = some w → w ≠ [] → ∀ ts, parseWhen isRegex w = .ok ts →
      (∃ e, Denotes ts e) ∧ ∀ c, .cmd c ∈ ts → condSafe c ∧ condLine c)
    (hnonempty : ∀ p ∈ c.data.positionals, p.when_ ≠ some [])
    (hE : ∀ p ∈ c.data.positionals, ∀ w, p.when_ = some w → (E.holds c w = true ↔ WhenTrue isRegex (holdsEach (fun a b => varOf a == varOf b) rx l) w))
    (ln : BLine) (hln : ln.positionals = l.positionals) :
    BashBlocks.runText env text = some ((runPositionals E ln parents c).map (fun ev => match ev with
      | .pos code => indentedLines code
      | _ => indentedLines subCode)) := by
  obtain ⟨P, hrun, -, -, h3, h4⟩ := run_pairs isRegex pre hp parents c (E.posCode c) subCode text htext hname rx env henv l varOf hvar hview hwhen
    (PositionalTurn parents isRegex (holdsEach (fun a b => varOf a == varOf b) rx l) l.positionals.length) (fun _ => Iff.rfl)
  rw [hrun]
  congr 1
  have hhere : ∀ p : Pos, p.isHere ln parents = here parents l.positionals.length p := by
    intro p
    unfold Pos.isHere here
    rw [hln]
  have hcode : codeLines = indentedLines := funext codeLines_eq
  have hsub : ∀ r : Option Str, (∀ k, r = some k → (P.find? (fun x => x.2)).map (·.1) = some k) → (r = none → P.find? (fun x => x.2) = none) →
      ((P ++ (match c.sub with
        | some n => [(subCode, decide (l.positionals.length = positionalNum parents n))]
        | none => [])).find? (fun x => x.2)).map (fun x => codeLines x.1) =
      Option.map (fun ev => match ev with
        | BEvent.pos code => indentedLines code
        | _ => indentedLines subCode) (match r with
        | some code => some (.pos code)
        | none => match c.sub with
          | some n => if ln.positionals.length = positionalNum parents n then some (.names (c.children.flatMap (fun d => d.data.prog :: d.data.aliases))) else none
          | none => none) := by
    intro r hr1 hr2
    rw [List.find?_append]
    cases r with
    | some k =>
      obtain ⟨y, hy, hk⟩ := Option.map_eq_some_iff.mp (hr1 k rfl)
      rw [hy]
      simp [← hk, hcode]
    | none =>
      rw [hr2 rfl, Option.none_or, hln]
      cases c.sub with
      | none => rfl
      | some n =>
        simp only [List.find?_cons, List.find?_nil]
        by_cases hn : l.positionals.length = positionalNum parents n
        · simp [hn, hcode]
        · simp [hn]
  have hany : c.data.positionals.any (fun p => p.when_.isSome) = true ↔ ∃ p ∈ c.data.positionals, ∃ w, p.when_ = some w ∧ w ≠ [] := by
    rw [List.any_eq_true]
    constructor
    · rintro ⟨p, hpm, h⟩
      obtain ⟨w, hw⟩ := Option.isSome_iff_exists.mp h
      exact ⟨p, hpm, w, hw, fun e => hnonempty p hpm (by rw [hw, e])⟩
    · rintro ⟨p, hpm, w, hw, -⟩
      exact ⟨p, hpm, by rw [hw]; rfl⟩
  unfold runPositionals
  simp only
  by_cases hw : c.data.positionals.any (fun p => p.when_.isSome) = true
  · rw [if_pos hw]
    have hP := h3 (hany.mp hw)
    have hfind : (P.find? (fun x => x.2)).map (·.1) = runPositionalsWhen E ln parents c (c.data.positionals.filter (fun p => !p.isCommandArg)) := by
      rw [hP, List.find?_map, Option.map_map]
      unfold runPositionalsWhen
      have : ∀ ps : List Pos, (∀ p ∈ ps, p ∈ c.data.positionals.filter (fun p => !p.isCommandArg)) →
          ps.find? ((fun x : Str × Bool => x.2) ∘ fun p => (E.posCode c p,
            decide (PositionalTurn parents isRegex (holdsEach (fun a b => varOf a == varOf b) rx l) l.positionals.length p))) =
          ps.find? (fun p => p.isHere ln parents && (match p.when_ with
            | some w => E.holds c w
            | none => true)) := by
        intro ps hps
        induction ps with
        | nil => rfl
        | cons p r ih =>
          obtain ⟨hpm, hpa⟩ := List.mem_filter.mp (hps p (by simp))
          rw [commandArg_iff] at hpa
          have hv : ((fun x : Str × Bool => x.2) ∘ fun p => (E.posCode c p,
              decide (PositionalTurn parents isRegex (holdsEach (fun a b => varOf a == varOf b) rx l) l.positionals.length p))) p =
              (p.isHere ln parents && (match p.when_ with
                | some w => E.holds c w
                | none => true)) := by
            simp only [Function.comp_apply]
            rw [Bool.eq_iff_iff, decide_eq_true_eq, Bool.and_eq_true, hhere, here_iff]
            unfold PositionalTurn
            cases hpw : p.when_ with
            | none => simp [hpa]
            | some w =>
              have hne : w ≠ [] := fun e => hnonempty p hpm (by rw [hpw, e])
              simp only [Option.some.injEq, forall_eq', hne, ne_eq, not_false_eq_true, forall_const, hE p hpm w hpw]
              exact ⟨fun h => h.2, fun h => ⟨hpa, h⟩⟩
          rw [List.find?_cons, List.find?_cons, hv, ih (fun q hq => hps q (by simp [hq]))]
      rw [this _ (fun _ h => h)]
      rfl
    exact hsub _ (fun k hk => by rw [hfind, hk]) (fun hk => by rw [hk, Option.map_eq_none_iff] at hfind; exact hfind)
  · rw [if_neg hw]
    have hP := h4 (fun h => hw (hany.mpr h))
    have hfind : (P.find? (fun x => x.2)).map (·.1) = runPositionalsNoWhen E ln parents c (c.data.positionals.filter (fun p => !p.isCommandArg)) := by
      rw [hP, List.find?_map, Option.map_map]
      unfold runPositionalsNoWhen
      simp only [hhere]
      rfl
    exact hsub _ (fun k hk => by rw [hfind, hk]) (fun hk => by rw [hk, Option.map_eq_none_iff] at hfind; exact hfind)

/-! ## Examples -/

/-- A command with two positionals at the first place, one of them with a condition, and with subcommands. -/
def examplePlaces : Cmd := .node { prog := S "prog", options := exampleOffers.data.options, positionals := [{ number := 1, metavar := some (S "echo A\n\necho B"), when_ := some (S "has_option -v || positional_count '>' 1") },
    { number := 1, metavar := some (S "echo C"), repeatable := true }, { number := 1, complete := [.str (S "command_arg")] }] } (some 2) []

/-- A command with three positionals, two of them with the same code. -/
def exampleSamePlaces : Cmd := .node { prog := S "prog", positionals := [{ number := 1, metavar := some (S "echo FILE") }, { number := 2, metavar := some [] },
    { number := 3, metavar := some (S "echo FILE"), repeatable := true }] } none []

/-- The texts for the examples. -/
def examplePlacesText : Str := S "(( ${#POSITIONALS[@]} == 1 )) && { (( ${#OPT_verbose[@]} )) || (( ${#POSITIONALS[@]} > 1 )); } && {
  echo A

  echo B
  return 0;
}

(( ${#POSITIONALS[@]} >= 1 )) && {
  echo C
  return 0;
}

(( ${#POSITIONALS[@]} == 2 )) && {
  echo run
  return 0;
}"

def exampleSamePlacesText : Str := S "(( ${#POSITIONALS[@]} == 1 || ${#POSITIONALS[@]} >= 3 )) && {
  echo FILE
  return 0;
}

(( ${#POSITIONALS[@]} == 2 )) && {
  return 0;
}"

theorem C103_example_text :
    (positionalsText (fun _ => true) (S "_prog") [] examplePlaces (fun p => p.metavar.getD []) (S "echo run")).toOption = some examplePlacesText ∧
    (positionalsText (fun _ => true) (S "_prog") [] exampleSamePlaces (fun p => p.metavar.getD []) []).toOption = some exampleSamePlacesText := by
  constructor
  · have h : positionalBlocks (fun _ => true) (S "_prog") [] examplePlaces (fun p => p.metavar.getD []) =
        mapE (positionalWhenBlock (fun _ => true) (S "_prog") [] examplePlaces (fun p => p.metavar.getD []))
          [{ number := 1, metavar := some (S "echo A\n\necho B"), when_ := some (S "has_option -v || positional_count '>' 1") },
            { number := 1, metavar := some (S "echo C"), repeatable := true }] := rfl
    have hw : Pos.whenSet { number := 1, metavar := some (S "echo A\n\necho B"), when_ := some (S "has_option -v || positional_count '>' 1") } =
        some (S "has_option -v || positional_count '>' 1") := rfl
    simp only [positionalsText, h, mapE, positionalWhenBlock, hw, example_when]
    decide +kernel
  · decide +kernel

/-- The arrays, with the given ones set and with a number of positional words. -/
def examplePlaceEnv (given : List Str) (n : Nat) : Env :=
  { arrays := fun v => if v = S "POSITIONALS" then List.replicate n (S "x") else if given.contains v then [S "_OPT_ISSET_"] else [], endOfOptions := false, cur := S "x",
    call := bashHelperCall (S "_prog") (fun _ _ _ => false), before := [] }

theorem C103_example_run :
    BashBlocks.runText (examplePlaceEnv [S "OPT_verbose"] 1) examplePlacesText = some (some [S "  echo A", [], S "  echo B"]) ∧
    BashBlocks.runText (examplePlaceEnv [] 1) examplePlacesText = some (some [S "  echo C"]) ∧
    BashBlocks.runText (examplePlaceEnv [] 0) examplePlacesText = some none ∧
    BashBlocks.runText (examplePlaceEnv [] 1) exampleSamePlacesText = some (some [S "  echo FILE"]) ∧
    BashBlocks.runText (examplePlaceEnv [] 2) exampleSamePlacesText = some (some []) ∧
    BashBlocks.runText (examplePlaceEnv [] 5) exampleSamePlacesText = some (some [S "  echo FILE"]) := by
  decide +kernel

/-- The example meets the conditions. -/
theorem C103_example_hypotheses :
    (∀ o ∈ examplePlaces.data.options, isName (captureVariable o) = true) ∧
    (∃ p ∈ examplePlaces.data.positionals, ∃ w, p.when_ = some w ∧ w ≠ []) ∧
    ∀ p ∈ examplePlaces.data.positionals, ∀ w, p.when_ = some w → w ≠ [] → ∀ ts, parseWhen (fun _ => true) w = .ok ts →
      (∃ e, Denotes ts e) ∧ ∀ c, .cmd c ∈ ts → condSafe c ∧ condLine c := by
  refine ⟨by decide +kernel, ⟨_, List.mem_cons_self, _, rfl, by decide +kernel⟩, ?_⟩
  intro p hpm w hw _ ts hts
  have : w = S "has_option -v || positional_count '>' 1" := by
    simp only [examplePlaces, Cmd.data, List.mem_cons, List.not_mem_nil, or_false] at hpm
    rcases hpm with rfl | rfl | rfl <;> simp at hw
    exact hw.symm
  subst this
  rw [example_when] at hts
  cases hts
  refine ⟨⟨_, .or (.pipe (.cmd _)) (.cmd _)⟩, ?_⟩
  intro c hc
  simp at hc
  rcases hc with rfl | rfl <;> simp [condSafe, condLine]

/-- Without conditions, positionals with the same code share a block, so that the code of a later positional can be run although an
earlier one may be completed too: the second positional can be repeated, and the third has the code of the first. -/
theorem C103_not_first : ∃ (c : Cmd) (text : Str),
    (positionalsText (fun _ => true) (S "_prog") [] c (fun p => p.metavar.getD []) []).toOption = some text ∧
    (c.data.positionals.map (fun p => (p.number, p.repeatable, p.metavar, p.when_))) =
      [(1, false, some (S "echo A"), none), (2, true, some (S "echo B"), none), (3, false, some (S "echo A"), none)] ∧
    BashBlocks.runText (examplePlaceEnv [] 3) text = some (some [S "  echo A"]) := by
  refine ⟨.node { prog := S "prog", positionals := [{ number := 1, metavar := some (S "echo A") }, { number := 2, metavar := some (S "echo B"), repeatable := true },
    { number := 3, metavar := some (S "echo A") }] } none [], S "(( ${#POSITIONALS[@]} == 1 || ${#POSITIONALS[@]} == 3 )) && {
  echo A
  return 0;
}

(( ${#POSITIONALS[@]} >= 2 )) && {
  echo B
  return 0;
}", by decide +kernel, rfl, by decide +kernel⟩

end CC
