import Verif.Lemmas.BashOffersLines
import Verif.Props.BashOptions
/-!
# Lemmas: the condition of an option, as text and as tokens
-/

namespace CC
namespace OffersLex
open ShellGrammar (Expr DenotesAt Denotes Tok parse_complete)
open WhenSpec
open BashText (isName)
open BashOffers

/-! ## Variables -/

theorem noneText_inj {a b : Str} (h : noneText a = noneText b) : a = b := by
  unfold noneText at h
  rw [List.append_assoc, List.append_assoc] at h
  exact List.append_cancel_right (List.append_cancel_left h)

theorem removeFinals_map (cs fs : List Str) : removeFinals (cs.map noneText) (fs.map noneText) = (removeFinals cs fs).map noneText := by
  unfold removeFinals
  induction fs generalizing cs with
  | nil => rfl
  | cons f r ih =>
    rw [List.map_cons, List.foldl_cons, List.foldl_cons, ← ih]
    congr 1
    induction cs with
    | nil => rfl
    | cons c cs ih2 =>
      rw [List.map_cons, List.erase_cons, List.erase_cons]
      by_cases h : c = f
      · subst h; simp
      · have : noneText c ≠ noneText f := fun e => h (noneText_inj e)
        rw [if_neg (by simpa using this), if_neg (by simpa using h), List.map_cons, ih2]

theorem map_surj {α β : Type} (f : α → β) : ∀ l : List β, (∀ x ∈ l, ∃ v, f v = x) → ∃ L : List α, l = L.map f
  | [], _ => ⟨[], rfl⟩
  | x :: r, h => by
    obtain ⟨L, hL⟩ := map_surj f r (fun y hy => h y (by simp [hy]))
    obtain ⟨v, hv⟩ := h x (by simp)
    exact ⟨v :: L, by rw [List.map_cons, hv, hL]⟩

/-- The conditions as texts are those of the same variables. -/
theorem conditions_vars (cs fs : List Str) : ∃ L : List Str, uniq (sortStrs (removeFinals (cs.map noneText) (fs.map noneText))) = L.map noneText ∧
    ∀ v, v ∈ L ↔ v ∈ uniq (sortStrs (removeFinals cs fs)) := by
  rw [removeFinals_map]
  obtain ⟨L, hL⟩ := map_surj noneText (uniq (sortStrs ((removeFinals cs fs).map noneText))) (by
    intro x hx
    rw [C40_uniq_mem, mem_sortStrs] at hx
    obtain ⟨v, -, hv⟩ := List.mem_map.mp hx
    exact ⟨v, hv⟩)
  refine ⟨L, hL, fun v => ?_⟩
  rw [C40_uniq_mem, mem_sortStrs]
  have h1 : v ∈ L ↔ noneText v ∈ L.map noneText := by
    constructor
    · exact fun h => List.mem_map_of_mem h
    · intro h
      obtain ⟨w, hw, e⟩ := List.mem_map.mp h
      rwa [noneText_inj e] at hw
  rw [h1, ← hL, C40_uniq_mem, mem_sortStrs]
  constructor
  · intro h
    obtain ⟨w, hw, e⟩ := List.mem_map.mp h
    rwa [noneText_inj e] at hw
  · exact fun h => List.mem_map_of_mem h

theorem good_resolve {options : List Opt} (h : ∀ o ∈ options, isName (captureVariable o) = true) : GoodNames (bashResolve options) := by
  intro ss vars hr hne
  simp only [bashResolve, bind, Except.bind] at hr
  cases ho : optionsByStrings options ss with
  | error e => rw [ho] at hr; cases hr
  | ok res =>
    rw [ho] at hr
    simp only [Except.ok.injEq] at hr
    subst hr
    obtain ⟨-, h2, h3⟩ := C23_result options ss res ho
    constructor
    · obtain ⟨s, r, rfl⟩ := List.exists_cons_of_ne_nil hne
      obtain ⟨x, -, y, hy, -⟩ := h3 s (by simp)
      intro e
      rw [List.map_eq_nil_iff] at e
      rw [e] at hy
      cases hy
    · intro v hv
      obtain ⟨x, hx, rfl⟩ := List.mem_map.mp hv
      obtain ⟨s, -, hf⟩ := h2 x hx
      exact h x (List.mem_of_find?_eq_some hf)

/-! ## `when` -/

theorem genTokens_from {g : Cond → Except Err (List (Tok BashPrim))} {ts : List (Tok Cond)} : ∀ {r : List (Tok BashPrim)}, genTokens g ts = .ok r →
    ∀ p, .cmd p ∈ r → ∃ c a, .cmd c ∈ ts ∧ g c = .ok a ∧ .cmd p ∈ a := by
  induction ts with
  | nil => intro r h p hp; simp only [genTokens, Except.ok.injEq] at h; subst h; cases hp
  | cons t ts ih =>
    intro r h p hp
    cases t with
    | cmd c =>
      simp only [genTokens, bind, Except.bind] at h
      cases hg : g c with
      | error e => rw [hg] at h; cases h
      | ok a =>
        rw [hg] at h
        simp only at h
        cases hr : genTokens g ts with
        | error e => rw [hr] at h; cases h
        | ok r' =>
          rw [hr] at h
          simp only [Except.ok.injEq] at h
          subst h
          rcases List.mem_append.mp hp with hp | hp
          · exact ⟨c, a, by simp, hg, hp⟩
          · obtain ⟨c', a', h1, h2, h3⟩ := ih hr p hp
            exact ⟨c', a', by simp [h1], h2, h3⟩
    | bang | lpar | rpar | and | or =>
      simp only [genTokens, bind, Except.bind] at h
      cases hr : genTokens g ts with
      | error e => rw [hr] at h; cases h
      | ok r' =>
        rw [hr] at h
        simp only [Except.ok.injEq] at h
        subst h
        rcases List.mem_cons.mp hp with hp | hp
        · cases hp
        · obtain ⟨c', a', h1, h2, h3⟩ := ih hr p hp
          exact ⟨c', a', by simp [h1], h2, h3⟩

theorem orJoin_mem {α : Type} {p : α} : ∀ {l : List α}, .cmd p ∈ orJoin l → p ∈ l
  | [], h => by simp [orJoin] at h
  | [a], h => by simpa [orJoin] using h
  | a :: b :: r, h => by
    simp only [orJoin, List.mem_cons, Tok.cmd.injEq, reduceCtorEq, false_or] at h
    rcases h with h | h
    · simp [h]
    · have := orJoin_mem (l := b :: r) h
      simp [List.mem_cons.mp this]

theorem cond_good {resolve : List Str → Except Err (List Str)} (hr : GoodNames resolve) {k : Cond} (hk : condLine k) {a : List (Tok BashPrim)}
    (h : bashCond resolve k = .ok a) : ∀ p, .cmd p ∈ a → primGood p := by
  intro p hp
  cases k with
  | optionIs opts vals nc any =>
    simp only [bashCond, bind, Except.bind] at h
    cases hv : resolve opts with
    | error e => rw [hv] at h; cases h
    | ok vars =>
      rw [hv] at h
      obtain ⟨-, g2⟩ := hr opts vars hv hk.1
      have hgood : ∀ v, primGood (.arrayContains nc v (vars.map (fun x => ⟨x, any⟩))) := by
        intro v r hr
        obtain ⟨x, hx, rfl⟩ := List.mem_map.mp hr
        exact g2 x hx
      simp only at h
      split at h
      · simp only [Except.ok.injEq] at h
        subst h
        simp only [List.mem_singleton, Tok.cmd.injEq] at hp
        subst hp
        exact hgood _
      · simp only [Except.ok.injEq] at h
        subst h
        simp only [List.mem_cons, List.mem_append, reduceCtorEq, List.not_mem_nil, or_false, false_or] at hp
        obtain ⟨v, -, rfl⟩ := List.mem_map.mp (orJoin_mem hp)
        exact hgood _
  | optionMatch opts rx nc any =>
    simp only [bashCond, bind, Except.bind] at h
    cases hv : resolve opts with
    | error e => rw [hv] at h; cases h
    | ok vars =>
      rw [hv] at h
      obtain ⟨-, g2⟩ := hr opts vars hv hk.1
      simp only [Except.ok.injEq] at h
      subst h
      simp only [List.mem_singleton, Tok.cmd.injEq] at hp
      subst hp
      intro r hr
      obtain ⟨x, hx, rfl⟩ := List.mem_map.mp hr
      exact g2 x hx
  | hasOption opts =>
    simp only [bashCond, bind, Except.bind] at h
    cases hv : resolve opts with
    | error e => rw [hv] at h; cases h
    | ok vars =>
      rw [hv] at h
      obtain ⟨g1, g2⟩ := hr opts vars hv hk
      simp only [Except.ok.injEq] at h
      subst h
      simp only [List.mem_singleton, Tok.cmd.injEq] at hp
      subst hp
      exact ⟨g1, g2⟩
  | positionalCount op n =>
    simp only [bashCond, Except.ok.injEq] at h
    subst h
    simp only [List.mem_singleton, Tok.cmd.injEq] at hp
    subst hp
    trivial
  | positionalContains nc n vals =>
    simp only [bashCond, Except.ok.injEq] at h
    subst h
    simp only [List.mem_singleton, Tok.cmd.injEq] at hp
    subst hp
    trivial

theorem code_good {resolve : List Str → Except Err (List Str)} (hr : GoodNames resolve) {ts : List (Tok Cond)} (hk : ∀ k, .cmd k ∈ ts → condLine k)
    {code : List (Tok BashPrim)} (h : bashGenerate resolve ts = .ok code) : ∀ p, .cmd p ∈ code.map liftTok → osGood p := by
  intro p hp
  obtain ⟨t, ht, e⟩ := List.mem_map.mp hp
  cases t with
  | cmd q =>
    simp only [liftTok, Tok.cmd.injEq] at e
    subst e
    unfold bashGenerate genWithBraces at h
    simp only [bind, Except.bind] at h
    cases hg : genTokens (bashCond resolve) ts with
    | error e => rw [hg] at h; cases h
    | ok r =>
      rw [hg] at h
      have hq : .cmd q ∈ r := by
        simp only at h
        split at h
        · simp only [Except.ok.injEq] at h
          subst h
          simpa using ht
        · simp only [Except.ok.injEq] at h
          subst h
          exact ht
      obtain ⟨c, a, h1, h2, h3⟩ := genTokens_from hg q hq
      exact cond_good hr (hk c h1) h2 q h3
  | bang | lpar | rpar | and | or => cases e

theorem bashText_cond {pre : Str} {resolve : List Str → Except Err (List Str)} {k : Cond} {t : Str} (h : k.bashText pre resolve = .ok t) :
    ∃ a, bashCond resolve k = .ok a := by
  cases k with
  | optionIs opts vals nc any =>
    simp only [Cond.bashText, bashCond, bind, Except.bind] at h ⊢
    cases hv : resolve opts with
    | error e => rw [hv] at h; cases h
    | ok vars => simp only; split <;> exact ⟨_, rfl⟩
  | optionMatch opts rx nc any =>
    simp only [Cond.bashText, bashCond, bind, Except.bind] at h ⊢
    cases hv : resolve opts with
    | error e => rw [hv] at h; cases h
    | ok vars => exact ⟨_, rfl⟩
  | hasOption opts =>
    simp only [Cond.bashText, bashCond, bind, Except.bind] at h ⊢
    cases hv : resolve opts with
    | error e => rw [hv] at h; cases h
    | ok vars => exact ⟨_, rfl⟩
  | positionalCount op n => exact ⟨_, rfl⟩
  | positionalContains nc n vals => exact ⟨_, rfl⟩

theorem bashWhen_code {pre : Str} {resolve : List Str → Except Err (List Str)} {ts : List (Tok Cond)} {t : Str} (h : bashWhenText pre resolve ts = .ok t) :
    ∃ code, bashGenerate resolve ts = .ok code := by
  simp only [bashWhenText, bind, Except.bind] at h
  cases hm : mapE (bashWhenPiece pre resolve) ts with
  | error e => rw [hm] at h; cases h
  | ok r =>
    obtain ⟨m1, -, -⟩ := mapE_mem hm
    obtain ⟨r', hr'⟩ := genTokens_total (bashCond resolve) ts (by
      intro c hc
      obtain ⟨y, -, hy⟩ := m1 _ hc
      exact bashText_cond hy)
    simp only [bashGenerate, genWithBraces, bind, Except.bind, hr']
    split <;> exact ⟨_, rfl⟩

/-! ## Entries -/

theorem lift_pieces (pre : Str) (code : List (Tok BashPrim)) : (code.map liftTok).flatMap (pieceOf (osSimple pre)) = code.flatMap (pieceOf (primSimple pre)) := by
  rw [List.flatMap_map]
  congr 1
  funext t
  cases t <;> rfl

theorem reads_none {vars : List Str} (h : ∀ v ∈ vars, isName v = true) (pre : Str) :
    ZshLex.Reads (S "(( " ++ joinWith (S " && ") (vars.map noneText) ++ S " ))") ([Tok.cmd (OSPrim.noneSet vars)].flatMap (pieceOf (osSimple pre))) ∧
    '\n' ∉ (S "(( " ++ joinWith (S " && ") (vars.map noneText) ++ S " ))") := by
  have e : S "(( " ++ joinWith (S " && ") (vars.map noneText) ++ S " ))" = S "((" ++ emptyText vars ++ S "))" := by simp [S, emptyText]
  rw [e]
  constructor
  · exact ZshLex.reads_arith (emptyText vars) (sum_close h (by simp)).2
  · simp only [List.mem_append, not_or]
    exact ⟨⟨by decide +kernel, (sum_close h (by simp)).2⟩, by decide +kernel⟩

theorem reads_andText {a b : Str} {x y : List ZshText.Tok} (ha : ZshLex.Reads a x) (hb : ZshLex.Reads b y) : ZshLex.Reads (a ++ S " && " ++ b) (x ++ .and :: y) := by
  intro o c hc
  have e : a ++ S " && " ++ b ++ [c] = (a ++ [' ']) ++ (S "&& " ++ (b ++ [c])) := by simp [S]
  have h1 : ∀ o, ZshText.run ⟨.gap, [], o⟩ (S "&& ") = some ⟨.gap, [], o ++ [.and]⟩ := fun o =>
    ZshLex.run_out (m := .gap) (w := []) (ts := [.and]) rfl o
  rw [e, ZshLex.run_append, ha o ' ' (by simp), ZshLex.gapStep_space, Option.bind_some, ZshLex.run_append, h1, Option.bind_some, hb _ c hc]
  simp

/-- The text of a condition has the value of its tokens. -/
theorem entry_value {isRegex : Str → Bool} {pre : Str} (hp : ∀ c ∈ pre, ZshLex.idChar c = true) {options : List Opt} {finals : List Str} {o : Opt} {e : OptEntry}
    {te : TextEntry} (ho : o ∈ options) (h : optEntry isRegex options finals o = .ok e) (ht : textEntry isRegex pre options (finals.map noneText) o = .ok te)
    (hname : ∀ o ∈ options, isName (captureVariable o) = true)
    {varOf : Str → Str} (hvar : ∀ s o, options.find? (fun o => decide (s ∈ o.strings)) = some o → varOf s = captureVariable o)
    (rx : Bool → Str → Str → Bool) (env : Env) {l : Line} (hview : BashView varOf l (stateOf env))
    (hw : ∀ w, o.when_ = some w → ∀ ts, parseWhen isRegex w = .ok ts → (∃ e, Denotes ts e) ∧ ∀ c, .cmd c ∈ ts → condSafe c ∧ condLine c) :
    te.option = o ∧ e.option = o ∧ Value pre rx env te.full (lineRuns rx (stateOf env) e.full) := by
  obtain ⟨conf, hconf, _, _, hc1, _⟩ := C17_conflicts options o ho
  simp only [optEntry, textEntry, hconf, bind, Except.bind] at h ht
  have e1 : conf.map (fun x => noneText (captureVariable x)) ++ (if o.repeatable = .val false then [noneText (captureVariable o)] else []) =
      (conf.map captureVariable ++ (if o.repeatable = .val false then [captureVariable o] else [])).map noneText := by
    rw [List.map_append, List.map_map]
    split <;> rfl
  rw [e1] at ht
  obtain ⟨L, hL, hmem⟩ := conditions_vars (conf.map captureVariable ++ (if o.repeatable = .val false then [captureVariable o] else [])) finals
  rw [hL] at ht
  have hLn : ∀ v ∈ L, isName v = true := by
    intro v hv
    rw [hmem, C40_uniq_mem, mem_sortStrs] at hv
    rcases List.mem_append.mp (mem_removeFinals.1 hv) with hv | hv
    · obtain ⟨x, hx, rfl⟩ := List.mem_map.mp hv
      exact hname x (hc1 x hx).1
    · split at hv
      · simp only [List.mem_singleton] at hv
        subst hv
        exact hname o ho
      · cases hv
  generalize uniq (sortStrs (removeFinals (conf.map captureVariable ++ (if o.repeatable = .val false then [captureVariable o] else [])) finals)) = conds at h hmem
  have hall : OSPrim.succeeds rx (stateOf env) (.noneSet L) = OSPrim.succeeds rx (stateOf env) (.noneSet conds) := by
    simp only [OSPrim.succeeds]
    rw [Bool.eq_iff_iff, List.all_eq_true, List.all_eq_true]
    exact ⟨fun q v hv => q v ((hmem v).mpr hv), fun q v hv => q v ((hmem v).mp hv)⟩
  have hempty : L = [] ↔ conds = [] := by
    rw [List.eq_nil_iff_forall_not_mem, List.eq_nil_iff_forall_not_mem]
    exact forall_congr' (fun v => not_congr (hmem v))
  cases hwhen : o.when_ with
  | none =>
    simp only [hwhen, Except.ok.injEq] at h ht
    subst h; subst ht
    refine ⟨rfl, rfl, ?_⟩
    cases L with
    | nil =>
      rw [hempty.mp rfl]
      left
      exact ⟨rfl, rfl⟩
    | cons a as =>
      cases hc : conds with
      | nil => exact absurd (hempty.mpr hc) (by simp)
      | cons b bs =>
        rw [hc] at hall
        right
        obtain ⟨r1, r2⟩ := reads_none hLn pre
        have ef : TextEntry.full ⟨o, (a :: as).map noneText, none⟩ = S "(( " ++ joinWith (S " && ") ((a :: as).map noneText) ++ S " ))" := by
          simp [TextEntry.full]
        rw [ef]
        refine ⟨by simp [S], r2, _, .atom (.noneSet (a :: as)), r1, .pipe (.cmd _), ?_, ?_⟩
        · intro k hk
          simp only [List.mem_singleton, Tok.cmd.injEq] at hk
          subst hk
          exact ⟨by simp, hLn⟩
        · have d : Denotes [Tok.cmd (OSPrim.noneSet (b :: bs))] (.atom (OSPrim.noneSet (b :: bs))) := .pipe (.cmd _)
          simp only [lineRuns, OptEntry.full, Option.getD_none, List.map_nil, ShellGrammar.run, parse_complete d, Option.map_some, Expr.eval, hall]
          simp
  | some t =>
    simp only [hwhen] at h ht
    cases hpw : parseWhen isRegex t with
    | error x => rw [hpw] at h; cases h
    | ok ts =>
      rw [hpw] at h ht
      simp only at h ht
      cases hg : bashGenerate (bashResolve options) ts with
      | error x => rw [hg] at h; cases h
      | ok code =>
        cases hx : bashWhenText pre (bashResolve options) ts with
        | error x => rw [hx] at ht; cases ht
        | ok wt =>
          rw [hg] at h
          rw [hx] at ht
          simp only [Except.ok.injEq] at h ht
          subst h; subst ht
          refine ⟨rfl, rfl, ?_⟩
          obtain ⟨⟨ex, hd⟩, hs⟩ := hw t hwhen ts hpw
          have hgn := good_resolve hname
          have htsne : ts ≠ [] := by
            rintro rfl
            have := parse_complete hd
            simp [ShellGrammar.parse, ShellGrammar.parseGo] at this
          obtain ⟨w1, w2⟩ := bashWhen_reads hp hgn htsne (fun k hk => (hs k hk).2) hx hg
          have hcg := code_good hgn (fun k hk => (hs k hk).2) hg
          rw [← lift_pieces] at w1
          have hb := braces_context hd (OSPrim.succeeds rx (stateOf env))
            (fun c => open Classical in decide (holdsEach (fun a b => varOf a == varOf b) rx l c)) (genWithBraces_lift hg)
            (by
              intro c a hm hga
              unfold liftGen at hga
              cases hbc : bashCond (bashResolve options) c with
              | error x => simp [hbc, Except.map] at hga
              | ok a0 =>
                simp only [hbc, Except.map, Except.ok.injEq] at hga
                subst hga
                obtain ⟨e', d, hv⟩ := bash_prim (bashResolve_resolves hvar) rx hview c (hs c hm).1 a0 hbc
                exact ⟨liftExpr e', lift_denotes d, by rw [liftExpr_eval, hv]⟩)
          obtain ⟨⟨e1, d1, v1⟩, hctx⟩ := hb
          have hne : code.map liftTok ≠ [] := by
            intro q
            rw [q] at d1
            have := parse_complete d1
            simp [ShellGrammar.parse, ShellGrammar.parseGo] at this
          have hwne : wt ≠ [] := by
            rintro rfl
            have q := w1 [] ' ' (by simp)
            rw [ZshLex.gapStep_space] at q
            have q2 : ZshText.run ⟨.gap, [], []⟩ ([] ++ [' ']) = some ⟨.gap, [], []⟩ := rfl
            rw [q2] at q
            replace q : ([] : List ZshText.Tok) = [] ++ (code.map liftTok).flatMap (pieceOf (osSimple pre)) := congrArg (fun s => s.out) (Option.some.inj q)
            rw [List.nil_append] at q
            obtain ⟨x, r, hxr⟩ := List.exists_cons_of_ne_nil hne
            rw [hxr, List.flatMap_cons] at q
            have := (List.append_eq_nil_iff.mp q.symm).1
            cases x with
            | cmd k =>
              cases hk : osSimple pre k <;> simp [pieceOf, hk, ZshLex.simpleToks] at this
              rename_i ws
              have hpl := osSimple_plain pre k
              rw [hk] at hpl
              simp [this, ZshLex.startsPlain] at hpl
            | bang | lpar | rpar | and | or => simp [pieceOf] at this
          obtain ⟨w, ws, hcl⟩ := List.exists_cons_of_ne_nil hne
          right
          cases L with
          | nil =>
            rw [hempty.mp rfl]
            have ef : TextEntry.full ⟨o, ([] : List Str).map noneText, some wt⟩ = wt := by simp [TextEntry.full]
            rw [ef]
            refine ⟨hwne, w2, _, e1, w1, d1, hcg, ?_⟩
            rw [hcl] at d1
            simp [lineRuns, OptEntry.full, hcl, ShellGrammar.run, parse_complete d1]
          | cons a as =>
            cases hc : conds with
            | nil => exact absurd (hempty.mpr hc) (by simp)
            | cons b bs =>
              rw [hc] at hall
              obtain ⟨r1, r2⟩ := reads_none hLn pre
              have ef : TextEntry.full ⟨o, (a :: as).map noneText, some wt⟩ =
                  (S "(( " ++ joinWith (S " && ") ((a :: as).map noneText) ++ S " ))") ++ S " && " ++ wt := by
                unfold TextEntry.full
                rw [if_pos (by simpa using hwne)]
                simp [S]
              rw [ef]
              obtain ⟨e2, d2, v2⟩ := hctx [Tok.cmd (OSPrim.noneSet (a :: as))] (.atom (OSPrim.noneSet (a :: as))) (.pipe (.cmd _))
              obtain ⟨e3, d3, v3⟩ := hctx [Tok.cmd (OSPrim.noneSet (b :: bs))] (.atom (OSPrim.noneSet (b :: bs))) (.pipe (.cmd _))
              refine ⟨by simp [S], ?_, [Tok.cmd (OSPrim.noneSet (a :: as))] ++ .and :: code.map liftTok, e2, ?_, d2, ?_, ?_⟩
              · simp only [List.mem_append, not_or] at r2 ⊢
                exact ⟨⟨r2, by decide +kernel⟩, w2⟩
              · have := reads_andText r1 w1
                simpa [List.flatMap_append, pieceOf] using this
              · intro k hk
                simp only [List.mem_append, List.mem_cons, List.not_mem_nil, or_false, Tok.cmd.injEq, reduceCtorEq, false_or] at hk
                rcases hk with rfl | hk
                · exact ⟨by simp, hLn⟩
                · exact hcg k hk
              · rw [hcl] at d3
                have d3' : Denotes (Tok.cmd (OSPrim.noneSet (b :: bs)) :: .and :: w :: ws) e3 := d3
                have : lineRuns rx (stateOf env) (OptEntry.full ⟨o, b :: bs, some code⟩) = e3.eval (OSPrim.succeeds rx (stateOf env)) := by
                  simp [lineRuns, OptEntry.full, hcl, ShellGrammar.run, parse_complete d3']
                rw [this, v2, v3]
                simp only [Expr.eval, hall]

end OffersLex
end CC
