import Verif.Model.BashOptions
import Verif.Spec.OfferedSpec
import Verif.Lemmas.WhenPrim
import Verif.Props.When
import Verif.Props.CliOptions
import Verif.Props.Algo
import Verif.Lemmas.BashTree
import Verif.Props.Misc
import Verif.Props.BashParser
/-!
# C47: which option strings Bash offers
-/

namespace CC

open ShellGrammar WhenSpec

/-! ## Conditions -/

/-- The expression of a lifted condition. -/
def liftExpr : Expr BashPrim → Expr OSPrim
  | .atom a => .atom (.when_ a)
  | .not e => .not (liftExpr e)
  | .and e f => .and (liftExpr e) (liftExpr f)
  | .or e f => .or (liftExpr e) (liftExpr f)

theorem liftExpr_eval (rx : Bool → Str → Str → Bool) (σ : BashState) (e : Expr BashPrim) :
    (liftExpr e).eval (OSPrim.succeeds rx σ) = e.eval (BashPrim.succeeds rx σ) := by
  induction e with
  | atom a => rfl
  | not e ih => simp [liftExpr, Expr.eval, ih]
  | and e f ih1 ih2 => simp [liftExpr, Expr.eval, ih1, ih2]
  | or e f ih1 ih2 => simp [liftExpr, Expr.eval, ih1, ih2]

theorem lift_denotes {l : Level} {ts : List (Tok BashPrim)} {e : Expr BashPrim} (h : DenotesAt l ts e) :
    DenotesAt l (ts.map liftTok) (liftExpr e) := by
  induction h with
  | pipe _ ih => exact .pipe ih
  | and _ _ ih1 ih2 => simpa [liftTok, liftExpr] using DenotesAt.and ih1 ih2
  | or _ _ ih1 ih2 => simpa [liftTok, liftExpr] using DenotesAt.or ih1 ih2
  | cmd a => exact .cmd _
  | not _ ih => simpa [liftTok, liftExpr] using DenotesAt.not ih
  | group _ ih => simpa [liftTok, liftExpr] using DenotesAt.group ih

/-- The generator, with lifted conditions. -/
def liftGen (g : Cond → Except Err (List (Tok BashPrim))) (c : Cond) : Except Err (List (Tok OSPrim)) :=
  (g c).map (fun ts => ts.map liftTok)

theorem genTokens_lift (g : Cond → Except Err (List (Tok BashPrim))) (ts : List (Tok Cond)) :
    genTokens (liftGen g) ts = (genTokens g ts).map (fun r => r.map liftTok) := by
  induction ts with
  | nil => rfl
  | cons t ts ih =>
    cases t with
    | cmd c =>
      simp only [genTokens, ih, liftGen]
      cases g c <;> cases genTokens g ts <;> simp [bind, Except.bind, Except.map]
    | bang | lpar | rpar | and | or =>
      simp only [genTokens, ih]
      cases genTokens g ts <;> simp [bind, Except.bind, Except.map, liftTok]

theorem genWithBraces_lift {g : Cond → Except Err (List (Tok BashPrim))} {ts : List (Tok Cond)} {r : List (Tok BashPrim)}
    (h : genWithBraces g ts = .ok r) : genWithBraces (liftGen g) ts = .ok (r.map liftTok) := by
  simp only [genWithBraces, genTokens_lift, bind, Except.bind] at h ⊢
  cases hg : genTokens g ts with
  | error e => simp [hg] at h
  | ok r0 =>
    simp only [hg, Except.map] at h ⊢
    split at h
    · rename_i hb
      simp only [Except.ok.injEq] at h
      subst h
      rw [if_pos hb]
      simp [liftTok]
    · rename_i hb
      simp only [Except.ok.injEq] at h
      subst h
      rw [if_neg hb]

/-! ## Variables -/

theorem captureVariable_eqv {a b : Opt} (h : a.eqv b = true) : captureVariable a = captureVariable b := by
  rw [Opt.eqv_iff] at h
  rw [← h]
  rfl

theorem findOption_eq (options : List Opt) (s : Str) :
    findOption options s = options.find? (fun o => decide (s ∈ o.strings)) := by
  unfold findOption; congr 1; funext o; simp

theorem bashResolve_resolves {options : List Opt} {varOf : Str → Str}
    (hvar : ∀ s o, options.find? (fun o => decide (s ∈ o.strings)) = some o → varOf s = captureVariable o) :
    Resolves varOf (bashResolve options) := by
  intro opts vars h v
  simp only [bashResolve, bind, Except.bind] at h
  cases hr : optionsByStrings options opts with
  | error e => simp [hr] at h
  | ok res =>
    simp only [hr, Except.ok.injEq] at h
    subst h
    obtain ⟨_, h2, h3⟩ := C23_result options opts res hr
    simp only [List.mem_map]
    constructor
    · rintro ⟨x, hx, rfl⟩
      obtain ⟨s, hs, hf⟩ := h2 x hx
      exact ⟨s, hs, hvar s x hf⟩
    · rintro ⟨s, hs, rfl⟩
      obtain ⟨x, hf, y, hy, hyx⟩ := h3 s hs
      exact ⟨y, hy, by rw [hvar s x hf]; exact captureVariable_eqv hyx⟩

theorem mem_removeFinals {finals conditions : List Str} {v : Str} :
    (v ∈ removeFinals conditions finals → v ∈ conditions) ∧
    (v ∈ conditions → v ∈ removeFinals conditions finals ∨ v ∈ finals) := by
  unfold removeFinals
  induction finals generalizing conditions with
  | nil => simp
  | cons f fs ih =>
    simp only [List.foldl_cons]
    constructor
    · intro h
      exact List.mem_of_mem_erase ((ih (conditions := conditions.erase f)).1 h)
    · intro h
      by_cases hv : v = f
      · simp [hv]
      · rcases (ih (conditions := conditions.erase f)).2 ((List.mem_erase_of_ne hv).mpr h) with h | h
        · exact .inl h
        · exact .inr (by simp [h])

/-! ## One option -/

theorem offeredStrings_iff {o : Opt} (h : o.check = true) (w : Str) : w ∈ offeredStrings o ↔ OfferedAs o w := by
  obtain ⟨h1, h2, h3, hp, _⟩ := C15_getters o h
  have hx : ∀ s ∈ o.strings, (IsShort s ∧ ¬ IsLong s ∧ ¬ IsOld s) ∨ (¬ IsShort s ∧ IsLong s ∧ ¬ IsOld s) ∨
      (¬ IsShort s ∧ ¬ IsLong s ∧ IsOld s) := by
    intro s hs
    apply C15_exactly_one
    unfold Opt.check at h
    simp only [Bool.and_eq_true, List.all_eq_true] at h
    exact h.1.1.1.1.2 s hs
  have he : (o.hasOptionalArg || (o.hasRequiredArg && (o.longSep == .both || o.longSep == .equals))) = true ↔
      (o.complete ≠ none ∧ (o.optionalArg = true ∨ o.longSep = .both ∨ o.longSep = .equals)) := by
    unfold Opt.hasOptionalArg Opt.hasRequiredArg
    cases o.complete <;> cases o.optionalArg <;> cases o.longSep <;> simp
  unfold offeredStrings OfferedAs
  simp only [List.mem_append, h1]
  by_cases hb : (o.hasOptionalArg || (o.hasRequiredArg && (o.longSep == .both || o.longSep == .equals))) = true
  · have hc := he.mp hb
    simp only [hb, if_true, List.mem_append, List.mem_map, h2, h3]
    constructor
    · rintro (⟨hw, hs⟩ | ⟨a, ⟨ha, hl⟩, rfl⟩ | ⟨a, ⟨ha, hl⟩, rfl⟩)
      · refine ⟨w, hw, ?_⟩
        rw [if_neg]
        rintro ⟨hlo, _⟩
        rcases hx w hw with q | q | q <;> rcases hlo with r | r <;> simp_all
      · exact ⟨a, ha, by rw [if_pos ⟨.inl hl, hc⟩]⟩
      · exact ⟨a, ha, by rw [if_pos ⟨.inr hl, hc⟩]⟩
    · rintro ⟨s, hs, hw⟩
      by_cases hlo : IsLong s ∨ IsOld s
      · rw [if_pos ⟨hlo, hc⟩] at hw
        subst hw
        rcases hlo with hl | hl
        · exact .inr (.inl ⟨s, ⟨hs, hl⟩, rfl⟩)
        · exact .inr (.inr ⟨s, ⟨hs, hl⟩, rfl⟩)
      · rw [if_neg (fun q => hlo q.1)] at hw
        subst hw
        left
        refine ⟨hs, ?_⟩
        rcases hx _ hs with q | q | q
        · exact q.1
        · exact absurd (.inl q.2.1) hlo
        · exact absurd (.inr q.2.2) hlo
  · have hc : ¬ (o.complete ≠ none ∧ (o.optionalArg = true ∨ o.longSep = .both ∨ o.longSep = .equals)) :=
      fun q => hb (he.mpr q)
    simp only [hb, Bool.false_eq_true, if_false, List.mem_append, h2, h3]
    constructor
    · intro hw
      have : w ∈ o.strings := by rcases hw with q | q | q <;> exact q.1
      exact ⟨w, this, by rw [if_neg (fun q => hc q.2)]⟩
    · rintro ⟨s, hs, hw⟩
      rw [if_neg (fun q => hc q.2)] at hw
      subst hw
      rcases hx _ hs with q | q | q
      · exact .inl ⟨hs, q.1⟩
      · exact .inr (.inl ⟨hs, q.2.1⟩)
      · exact .inr (.inr ⟨hs, q.2.2⟩)

theorem mem_sortStrs {l : List Str} {x : Str} : x ∈ sortStrs l ↔ x ∈ l := (sortStrs_perm l).mem_iff

open Classical in
/-- The condition of one option. -/
theorem entry_runs {isRegex : Str → Bool} {options : List Opt} {finals : List Str} {o : Opt} {e : OptEntry}
    (ho : o ∈ options) (h : optEntry isRegex options finals o = .ok e)
    {varOf : Str → Str} (hvar : ∀ s o, options.find? (fun o => decide (s ∈ o.strings)) = some o → varOf s = captureVariable o)
    (rx : Bool → Str → Str → Bool) {l : Line} {σ : BashState} (hview : BashView varOf l σ)
    (hfin : ∀ v ∈ finals, σ.vars v = [])
    (hw : ∀ w, o.when_ = some w → ∀ ts, parseWhen isRegex w = .ok ts →
      (∃ e, Denotes ts e) ∧ ∀ c, .cmd c ∈ ts → condSafe c) :
    e.option = o ∧
    (lineRuns rx σ e.full = true ↔
      (∀ x ∈ options, ShareGroup o x → x.eqv o = false → σ.vars (captureVariable x) = []) ∧
      (o.repeatable = .val false → σ.vars (captureVariable o) = []) ∧
      ∀ t, o.when_ = some t → WhenTrue isRegex (holdsEach (fun a b => varOf a == varOf b) rx l) t) := by
  obtain ⟨conf, hconf, _, _, hc1, hc2⟩ := C17_conflicts options o ho
  have hc3 : ∀ x ∈ conf, x.eqv o = false := by
    obtain ⟨conf', hconf', _, q, _⟩ := C17_conflicts options o ho
    rw [hconf] at hconf'; cases hconf'; exact q
  simp only [optEntry, hconf, bind, Except.bind] at h
  generalize hcond : uniq (sortStrs (removeFinals (conf.map captureVariable ++
    (if o.repeatable = .val false then [captureVariable o] else [])) finals)) = conds at h
  have hcs : (∀ v ∈ conds, σ.vars v = []) ↔
      ((∀ x ∈ options, ShareGroup o x → x.eqv o = false → σ.vars (captureVariable x) = []) ∧
      (o.repeatable = .val false → σ.vars (captureVariable o) = [])) := by
    have hmem : ∀ v, v ∈ conds ↔ v ∈ removeFinals (conf.map captureVariable ++
        (if o.repeatable = .val false then [captureVariable o] else [])) finals := by
      intro v; rw [← hcond, C40_uniq_mem, mem_sortStrs]
    constructor
    · intro hall
      have hall' : ∀ v, v ∈ conf.map captureVariable ++
          (if o.repeatable = .val false then [captureVariable o] else []) → σ.vars v = [] := by
        intro v hv
        rcases mem_removeFinals.2 hv with q | q
        · exact hall v ((hmem v).mpr q)
        · exact hfin v q
      constructor
      · intro x hx hs hne
        obtain ⟨y, hy, hyx⟩ := hc2 x hx hs hne
        rw [← captureVariable_eqv hyx]
        exact hall' _ (List.mem_append_left _ (List.mem_map_of_mem hy))
      · intro hr
        apply hall'
        simp [hr]
    · rintro ⟨q1, q2⟩ v hv
      have hv := mem_removeFinals.1 ((hmem v).mp hv)
      rcases List.mem_append.mp hv with hv | hv
      · obtain ⟨x, hx, rfl⟩ := List.mem_map.mp hv
        exact q1 x (hc1 x hx).1 (hc1 x hx).2 (hc3 x hx)
      · split at hv
        · rename_i hr
          simp at hv
          subst hv
          exact q2 hr
        · simp at hv
  have hns : (OSPrim.succeeds rx σ (.noneSet conds)) = true ↔ ∀ v ∈ conds, σ.vars v = [] := by
    simp [OSPrim.succeeds, List.isEmpty_iff]
  rw [← and_assoc, ← hcs]
  cases hwhen : o.when_ with
  | none =>
    simp only [hwhen, Except.ok.injEq] at h
    subst h
    refine ⟨rfl, ?_⟩
    simp only [reduceCtorEq, false_implies, implies_true, and_true]
    rw [← hns]
    cases conds with
    | nil => simp [lineRuns, OptEntry.full, OSPrim.succeeds]
    | cons a as =>
      have d : Denotes [Tok.cmd (OSPrim.noneSet (a :: as))] (.atom (OSPrim.noneSet (a :: as))) := .pipe (.cmd _)
      simp [lineRuns, OptEntry.full, run, parse_complete d, Expr.eval]
  | some t =>
    simp only [hwhen] at h
    cases hp : parseWhen isRegex t with
    | error x => simp [hp] at h
    | ok ts =>
      simp only [hp] at h
      cases hg : bashGenerate (bashResolve options) ts with
      | error x => simp [hg] at h
      | ok code =>
        simp only [hg, Except.ok.injEq] at h
        subst h
        refine ⟨rfl, ?_⟩
        obtain ⟨⟨ex, hd⟩, hsafe⟩ := hw t hwhen ts hp
        have hb := braces_context hd (OSPrim.succeeds rx σ)
          (fun c => decide (holdsEach (fun a b => varOf a == varOf b) rx l c)) (genWithBraces_lift hg)
          (by
            intro c a hm hga
            unfold liftGen at hga
            cases hbc : bashCond (bashResolve options) c with
            | error x => simp [hbc, Except.map] at hga
            | ok a0 =>
              simp only [hbc, Except.map, Except.ok.injEq] at hga
              subst hga
              obtain ⟨e', d, hv⟩ := bash_prim (bashResolve_resolves hvar) rx hview c (hsafe c hm) a0 hbc
              exact ⟨liftExpr e', lift_denotes d, by rw [liftExpr_eval, hv]⟩)
        obtain ⟨⟨e1, d1, v1⟩, hctx⟩ := hb
        have hwt : (∀ t', some t = some t' → WhenTrue isRegex (holdsEach (fun a b => varOf a == varOf b) rx l) t') ↔
            ex.eval (fun c => decide (holdsEach (fun a b => varOf a == varOf b) rx l c)) = true := by
          constructor
          · intro q
            obtain ⟨ts', e', hp', hd', v, hv, he⟩ := q t rfl
            rw [hp] at hp'; cases hp'
            have := C07_unambiguous ts ex e' hd hd'
            subst this
            have hveq : v = fun c => decide (holdsEach (fun a b => varOf a == varOf b) rx l c) := by
              funext c
              rw [Bool.eq_iff_iff, hv c]; simp
            rw [hveq] at he; exact he
          · intro q t' ht
            cases ht
            exact ⟨ts, ex, hp, hd, _, fun c => by simp, q⟩
        rw [hwt, ← hns]
        have hne : code.map liftTok ≠ [] := by
          intro q
          rw [q] at d1
          have := parse_complete d1
          simp [parse, parseGo] at this
        cases hcl : code.map liftTok with
        | nil => exact absurd hcl hne
        | cons w ws =>
          rw [hcl] at d1 hctx
          cases conds with
          | nil =>
            simp [lineRuns, OptEntry.full, hcl, run, parse_complete d1, v1, OSPrim.succeeds]
          | cons a as =>
            obtain ⟨e2, d2, v2⟩ := hctx [Tok.cmd (OSPrim.noneSet (a :: as))] (.atom (OSPrim.noneSet (a :: as))) (.pipe (.cmd _))
            have d2' : Denotes (Tok.cmd (OSPrim.noneSet (a :: as)) :: .and :: w :: ws) e2 := d2
            simp [lineRuns, OptEntry.full, hcl, run, parse_complete d2', v2, Expr.eval]

/-! ## All options -/

theorem optionLines_mem (entries : List OptEntry) (P : List (Tok OSPrim) → Bool) (w : Str) :
    w ∈ ((optionLines entries).filter (fun l => P l.1)).flatMap (·.2) ↔
      ∃ e ∈ entries, P e.full = true ∧ w ∈ offeredStrings e.option := by
  simp only [optionLines, List.mem_flatMap, List.mem_filter, List.mem_map]
  constructor
  · rintro ⟨g, ⟨⟨⟨k, xs⟩, hm, rfl⟩, hp⟩, hw⟩
    obtain ⟨e, he, hw'⟩ := List.mem_flatMap.mp hw
    have hxs := C40_group_by_groups _ _ _ _ hm
    subst hxs
    simp only [List.mem_filter, decide_eq_true_eq] at he
    obtain ⟨h1, h2⟩ := he
    exact ⟨e, h1, by rw [h2]; exact hp, hw'⟩
  · rintro ⟨e, he, hp, hw⟩
    obtain ⟨⟨k, xs⟩, hm, hk⟩ := List.mem_map.mp (((C40_group_by_keys OptEntry.full entries).2.1 e.full).mpr ⟨e, he, rfl⟩)
    simp only at hk
    have hxs := C40_group_by_groups _ _ _ _ hm
    refine ⟨_, ⟨⟨(k, xs), hm, rfl⟩, ?_⟩, List.mem_flatMap.mpr ⟨e, ?_, hw⟩⟩
    · simp only; rw [hk]; exact hp
    · simp only; rw [hxs]; simp [he, hk]

theorem mapE_mem {α β} {f : α → Except Err β} {l : List α} {ys : List β} (h : mapE f l = .ok ys) :
    (∀ x ∈ l, ∃ y ∈ ys, f x = .ok y) ∧ (∀ y ∈ ys, ∃ x ∈ l, f x = .ok y) ∧ ys.length = l.length := by
  induction l generalizing ys with
  | nil => simp [mapE] at h; subst h; simp
  | cons x xs ih =>
    simp only [mapE, bind, Except.bind] at h
    cases hx : f x with
    | error e => simp [hx] at h
    | ok y =>
      cases hxs : mapE f xs with
      | error e => simp [hx, hxs] at h
      | ok ys' =>
        simp only [hx, hxs, Except.ok.injEq] at h
        subst h
        obtain ⟨i1, i2, i3⟩ := ih hxs
        refine ⟨?_, ?_, by simp [i3]⟩
        · intro z hz
          rcases List.mem_cons.mp hz with rfl | hz
          · exact ⟨y, by simp, hx⟩
          · obtain ⟨u, hu, q⟩ := i1 z hz; exact ⟨u, by simp [hu], q⟩
        · intro u hu
          rcases List.mem_cons.mp hu with rfl | hu
          · exact ⟨x, by simp, hx⟩
          · obtain ⟨z, hz, q⟩ := i2 u hu; exact ⟨z, by simp [hz], q⟩

theorem final_mem {parents : List Cmd} {c : Cmd} {f : Opt} :
    f ∈ getFinalOptions parents c ↔ FinalHere parents c f := by
  unfold getFinalOptions FinalHere
  simp only [List.mem_flatMap, List.mem_cons, List.mem_reverse, List.mem_filter]
  constructor
  · rintro ⟨p, rfl | hp, h1, h2⟩
    · exact ⟨h2, .inl h1⟩
    · exact ⟨h2, .inr ⟨p, hp, h1⟩⟩
  · rintro ⟨h, h1 | ⟨p, hp, h1⟩⟩
    · exact ⟨c, .inl rfl, h1, h⟩
    · exact ⟨p, .inr hp, h1, h⟩

/-- **C47** For every command, every state of the arrays in which the array of an option of the command
(or of a final option of a parent) is non-empty exactly if the option was given, and every word at the
cursor: a string is offered exactly if it has to be. The conditions on `when` are those of C08. -/
theorem C47_offered_partial (isRegex : Str → Bool) (parents : List Cmd) (c : Cmd) (code : OptionCode)
    (hcode : optionCode isRegex parents c = .ok code)
    (hcheck : ∀ o ∈ c.data.options, o.check = true)
    (rx : Bool → Str → Str → Bool) (l : Line) (σ : BashState) (varOf : Str → Str)
    (hvar : ∀ s o, c.data.options.find? (fun o => decide (s ∈ o.strings)) = some o → varOf s = captureVariable o)
    (hview : BashView varOf l σ)
    (given : Opt → Prop)
    (hgiven : ∀ x, x ∈ c.data.options ∨ FinalHere parents c x → (σ.vars (captureVariable x) ≠ [] ↔ given x))
    (hwhen : ∀ o ∈ c.data.options, o.hidden = false → ∀ w, o.when_ = some w → ∀ ts, parseWhen isRegex w = .ok ts →
      (∃ e, Denotes ts e) ∧ ∀ c, .cmd c ∈ ts → condSafe c)
    (endOfOptions : Bool) (cur w : Str) :
    w ∈ code.offers rx σ endOfOptions cur ↔
      Offered parents c isRegex given (holdsEach (fun a b => varOf a == varOf b) rx l) endOfOptions cur w := by
  simp only [optionCode, bind, Except.bind] at hcode
  generalize hfs : (getFinalOptions parents c).map captureVariable = finals at hcode
  cases hm : mapE (optEntry isRegex c.data.options finals) (c.data.options.filter (fun o => !o.hidden)) with
  | error e => simp [hm] at hcode
  | ok entries =>
    simp only [hm, Except.ok.injEq] at hcode
    subst hcode
    obtain ⟨m1, m2, _⟩ := mapE_mem hm
    have hfin : (finals.all (fun v => (σ.vars v).isEmpty)) = true ↔ ∀ f, FinalHere parents c f → ¬ given f := by
      rw [← hfs]
      simp only [List.all_eq_true, List.mem_map, List.isEmpty_iff]
      constructor
      · intro h f hf hg
        exact (hgiven f (.inr hf)).mpr hg (h _ ⟨f, final_mem.mpr hf, rfl⟩)
      · rintro h v ⟨f, hf, rfl⟩
        have hf := final_mem.mp hf
        apply Classical.byContradiction
        intro q
        exact h f hf ((hgiven f (.inr hf)).mp q)
    have hnot : ∀ x ∈ c.data.options, (σ.vars (captureVariable x) = [] ↔ ¬ given x) := by
      intro x hx
      rw [← hgiven x (.inl hx)]; simp
    unfold OptionCode.offers Offered
    have hcur : startsWith cur ['-'] = true ↔ ['-'] <+: cur := startsWith_prefix _ _
    by_cases h1 : endOfOptions = false ∧ ['-'] <+: cur
    · obtain ⟨rfl, h2⟩ := h1
      rw [hcur.mpr h2]
      simp only [Bool.not_false, Bool.and_true, if_true, List.mem_filter, startsWith_prefix, true_and, h2]
      by_cases h3 : (finals.all (fun v => (σ.vars v).isEmpty)) = true
      · rw [if_pos h3, optionLines_mem]
        have h3' := hfin.mp h3
        have hf0 : ∀ v ∈ finals, σ.vars v = [] := by
          intro v hv
          have := List.all_eq_true.mp h3 v hv
          simpa [List.isEmpty_iff] using this
        rw [and_comm]
        refine and_congr_right (fun hpre => ?_)
        constructor
        · rintro ⟨e, he, hr, hw⟩
          refine ⟨h3', ?_⟩
          obtain ⟨o, ho, hoe⟩ := m2 e he
          simp only [List.mem_filter, Bool.not_eq_true'] at ho
          obtain ⟨e1, e2⟩ := entry_runs ho.1 hoe hvar rx hview hf0 (hwhen o ho.1 ho.2)
          obtain ⟨r1, r2, r3⟩ := e2.mp hr
          refine ⟨o, ho.1, ho.2, ?_, ?_, ?_, r3⟩
          · rw [← e1]; exact (offeredStrings_iff (by rw [e1]; exact hcheck o ho.1) w).mp hw
          · intro x hx hs hne; exact (hnot x hx).mp (r1 x hx hs hne)
          · intro hrep; exact (hnot o ho.1).mp (r2 hrep)
        · rintro ⟨_, o, ho, hh, hoff, r1, r2, r3⟩
          obtain ⟨e, he, hoe⟩ := m1 o (by simp [ho, hh])
          obtain ⟨e1, e2⟩ := entry_runs ho hoe hvar rx hview hf0 (hwhen o ho hh)
          refine ⟨e, he, e2.mpr ⟨?_, ?_, r3⟩, ?_⟩
          · intro x hx hs hne; exact (hnot x hx).mpr (r1 x hx hs hne)
          · intro hrep; exact (hnot o ho).mpr (r2 hrep)
          · rw [e1]; exact (offeredStrings_iff (hcheck o ho) w).mpr hoff
      · rw [if_neg h3]
        have h3' : ¬ ∀ f, FinalHere parents c f → ¬ given f := fun q => h3 (hfin.mpr q)
        simp only [List.not_mem_nil, false_and, false_iff]
        rintro ⟨_, q, _⟩
        exact h3' q
    · have : (!endOfOptions && startsWith cur ['-']) = false := by
        rw [← Bool.not_eq_true, Bool.and_eq_true, hcur]
        rintro ⟨a, b⟩
        exact h1 ⟨by simpa using a, b⟩
      rw [this]
      simp only [Bool.false_eq_true, if_false, List.not_mem_nil, false_iff]
      rintro ⟨a, b, _⟩
      exact h1 ⟨a, b⟩

/-- Bash can read the generated code exactly if there is a visible option or no final option. -/
theorem C47_readable (isRegex : Str → Bool) (parents : List Cmd) (c : Cmd) (code : OptionCode)
    (hcode : optionCode isRegex parents c = .ok code) :
    code.parses = true ↔ (∃ o ∈ c.data.options, o.hidden = false) ∨ ∀ f, ¬ FinalHere parents c f := by
  simp only [optionCode, bind, Except.bind] at hcode
  cases hm : mapE (optEntry isRegex c.data.options ((getFinalOptions parents c).map captureVariable))
      (c.data.options.filter (fun o => !o.hidden)) with
  | error e => simp [hm] at hcode
  | ok entries =>
    simp only [hm, Except.ok.injEq] at hcode
    subst hcode
    obtain ⟨m1, m2, _⟩ := mapE_mem hm
    have h1 : ((getFinalOptions parents c).map captureVariable).isEmpty = true ↔ ∀ f, ¬ FinalHere parents c f := by
      rw [List.isEmpty_iff, List.map_eq_nil_iff, List.eq_nil_iff_forall_not_mem]
      exact forall_congr' fun f => not_congr final_mem
    have h2 : optionLines entries = [] ↔ ¬ ∃ o ∈ c.data.options, o.hidden = false := by
      have h3 : optionLines entries = [] ↔ entries = [] := by
        rw [optionLines, List.map_eq_nil_iff]
        have hk := (C40_group_by_keys OptEntry.full entries).2.1
        constructor
        · intro h
          rw [List.eq_nil_iff_forall_not_mem]
          intro e he
          have := (hk e.full).mpr ⟨e, he, rfl⟩
          simp [h] at this
        · intro h; rw [h]; rfl
      rw [h3]
      constructor
      · rintro rfl ⟨o, ho, hh⟩
        obtain ⟨e, he, _⟩ := m1 o (by simp [ho, hh])
        simp at he
      · intro h
        rw [List.eq_nil_iff_forall_not_mem]
        intro e he
        obtain ⟨o, ho, _⟩ := m2 e he
        simp at ho
        exact h ⟨o, ho.1, ho.2⟩
    unfold OptionCode.parses
    rw [Bool.or_eq_true, h1, or_comm]
    apply or_congr_left
    rw [Bool.not_eq_true', ← Bool.not_eq_true, List.isEmpty_iff, h2]
    exact Classical.not_not

/-- A subcommand with only a hidden option below a program with a final option: the generated script is
not valid Bash. -/
theorem C47_unreadable :
    (optionCode (fun _ => true)
      [.node { prog := S "prog", options := [{ strings := [S "--help"], final := true }] } (some 1) []]
      (.node { prog := S "run", options := [{ strings := [S "--debug"], hidden := true }] } none [])).toOption.map
      OptionCode.parses = some false := by
  decide +kernel

/-! ## From the words typed -/

/-- The arrays after the loop of the parser: the values recorded for a variable, in order. -/
def BState.arrays (st : BState) : BashState :=
  { vars := fun v => (st.log.filter (fun p => p.1 == v)).map Prod.snd
    positionals := st.positionals }

/-- The variable of the option that a string names in the command, or the string itself. -/
def namedVariable (options : List Opt) (s : Str) : Str :=
  match options.find? (fun o => decide (s ∈ o.strings)) with
  | some o => captureVariable o
  | none => s

theorem valid_options {kind : Str → Option ArgKind} {it : Item} (h : it.Valid kind) :
    ∀ o ∈ it.options, ∃ k, kind o.1 = some k := by
  have hf : ∀ cs, FlagsOk kind cs → ∀ o ∈ flagOptions cs, ∃ k, kind o.1 = some k := by
    intro cs hcs o ho
    obtain ⟨c, hc, rfl⟩ := List.mem_map.mp ho
    exact ⟨_, hcs c hc⟩
  cases it with
  | word n =>
    intro o ho
    simp [Item.options] at ho
    subst ho
    rcases h.2 with q | q <;> exact ⟨_, q⟩
  | eq n v =>
    intro o ho
    simp [Item.options] at ho
    subst ho
    rcases h.2 with q | q <;> exact ⟨_, q⟩
  | sep n v =>
    intro o ho
    simp [Item.options] at ho
    subst ho
    exact ⟨_, h.2⟩
  | flags cs => exact hf cs h.2.2.1
  | attached cs c v =>
    intro o ho
    simp only [Item.options, List.mem_append, List.mem_singleton] at ho
    rcases ho with ho | rfl
    · exact hf cs h.2.1 o ho
    · rcases h.2.2.2.1 with q | q <;> exact ⟨_, q⟩
  | separate cs c v =>
    intro o ho
    simp only [Item.options, List.mem_append, List.mem_singleton] at ho
    rcases ho with ho | rfl
    · exact hf cs h.2.1 o ho
    · exact ⟨_, h.2.2.1⟩
  | bare cs c =>
    intro o ho
    simp only [Item.options, List.mem_append, List.mem_singleton] at ho
    rcases ho with ho | rfl
    · exact hf cs h.2.1 o ho
    · exact ⟨_, h.2.2.1⟩
  | pos w => intro o ho; simp [Item.options] at ho

theorem entries_options (opt : Str → Option Opt) (l : List (Str × Option Str))
    (h : ∀ o ∈ l, ∃ k, (opt o.1).map Opt.kind = some k) :
    l.map (optionEntry opt) = (l.filterMap (fun o => (opt o.1).map (fun x => (x, o.2.getD (S "_OPT_ISSET_"))))).map
      (fun p => (captureVariable p.1, p.2)) := by
  induction l with
  | nil => rfl
  | cons o l ih =>
    obtain ⟨k, hk⟩ := h o (by simp)
    cases ho : opt o.1 with
    | none => simp [ho] at hk
    | some x =>
      have := ih (fun o ho => h o (by simp [ho]))
      rw [List.map_cons, this, List.filterMap_cons]
      simp [ho, optionEntry]

theorem itemEntries_eq (optAt : List Str → Str → Option Opt) (ps : List Str) (its : List Item)
    (h : ItemsValid (fun ps s => (optAt ps s).map Opt.kind) ps its) :
    itemEntries optAt ps its = (itemOptions optAt ps its).map (fun p => (captureVariable p.1, p.2)) := by
  induction its generalizing ps with
  | nil => rfl
  | cons it its ih =>
    obtain ⟨h1, h2⟩ := h
    simp only [itemEntries, itemOptions, List.map_append]
    rw [ih _ h2, entries_options _ _ (valid_options h1)]

theorem lastEntries_eq (opt : Str → Option Opt) (cur : Str) (e : Ending)
    (h : e.Valid (fun s => (opt s).map Opt.kind)) :
    lastEntries opt cur e = (lastOptions opt cur e).map (fun p => (captureVariable p.1, p.2)) := by
  unfold lastEntries lastOptions
  rw [← entries_options, List.map_append]
  · congr 1
    cases e.incomplete <;> rfl
  · intro o ho
    rcases List.mem_append.mp ho with ho | ho
    · cases e with
      | cluster cs c =>
        obtain ⟨x, hx, rfl⟩ := List.mem_map.mp ho
        exact ⟨_, h.2.1 x hx⟩
      | done | dashes ws | word n => simp [Ending.options] at ho
    · cases e with
      | cluster cs c => simp [Ending.incomplete] at ho; subst ho; exact ⟨_, h.2.2.1⟩
      | word n => simp [Ending.incomplete] at ho; subst ho; exact ⟨_, h.2⟩
      | done | dashes ws => simp [Ending.incomplete] at ho

/-- What is offered if the parser recorded the options `typed`. -/
theorem offered_typed (isRegex : Str → Bool) (parents : List Cmd) (c : Cmd) (code : OptionCode)
    (hcode : optionCode isRegex parents c = .ok code)
    (hcheck : ∀ o ∈ c.data.options, o.check = true)
    (rx : Bool → Str → Str → Bool) (typed : List (Opt × Str)) (st : BState)
    (hst : st.log = typed.map (fun p => (captureVariable p.1, p.2)))
    (hvars : ∀ x, x ∈ c.data.options ∨ FinalHere parents c x → ∀ p ∈ typed, captureVariable p.1 = captureVariable x → p.1 = x)
    (hnames : ∀ p ∈ typed, (captureVariable p.1).head? ≠ some '-')
    (hwhen : ∀ o ∈ c.data.options, o.hidden = false → ∀ w, o.when_ = some w → ∀ ts, parseWhen isRegex w = .ok ts →
      (∃ e, Denotes ts e) ∧ ∀ c, .cmd c ∈ ts → condSafe c)
    (cur w : Str) :
    w ∈ code.offers rx st.arrays st.endOfOptions cur ↔
      Offered parents c isRegex (fun x => ∃ v, (x, v) ∈ typed)
        (holdsEach (fun a b => namedVariable c.data.options a == namedVariable c.data.options b) rx
          ⟨typed.map (fun p => (captureVariable p.1, p.2)), st.positionals⟩) st.endOfOptions cur w := by
  have hself : ∀ p ∈ typed, namedVariable c.data.options (captureVariable p.1) = captureVariable p.1 := by
    intro p hp
    unfold namedVariable
    cases hf : c.data.options.find? (fun o => decide (captureVariable p.1 ∈ o.strings)) with
    | none => rfl
    | some o =>
      exfalso
      have hm := List.mem_of_find?_eq_some hf
      have hs := List.find?_some hf
      simp only [decide_eq_true_eq] at hs
      have hc := hcheck o hm
      unfold Opt.check at hc
      simp only [Bool.and_eq_true, List.all_eq_true] at hc
      obtain ⟨_, a, as, he, _⟩ := (C15_accepted _).mp (hc.1.1.1.1.2 _ hs)
      exact hnames p hp (by rw [he]; rfl)
  refine C47_offered_partial isRegex parents c code hcode hcheck rx _ st.arrays (namedVariable c.data.options) ?_ ?_
    (fun x => ∃ v, (x, v) ∈ typed) ?_ hwhen st.endOfOptions cur w
  · intro s o h
    simp [namedVariable, h]
  · refine ⟨?_, rfl⟩
    intro o
    simp only [BState.arrays, valuesOf, hst]
    congr 1
    apply List.filter_congr
    intro q hq
    obtain ⟨p, hp, rfl⟩ := List.mem_map.mp hq
    simp only
    rw [hself p hp, Bool.eq_iff_iff]
    simp only [beq_iff_eq]
    exact eq_comm
  · intro x hx
    simp only [BState.arrays, hst, ne_eq, List.map_eq_nil_iff, List.filter_eq_nil_iff]
    constructor
    · intro h
      apply Classical.byContradiction
      intro hn
      apply h
      intro q hq
      obtain ⟨p, hp, rfl⟩ := List.mem_map.mp hq
      simp only [beq_iff_eq]
      intro he
      have := hvars x hx p hp he
      subst this
      exact hn ⟨p.2, hp⟩
    · rintro ⟨v, hv⟩ h
      have := h (captureVariable x, v) (List.mem_map.mpr ⟨(x, v), hv, rfl⟩)
      simp at this

/-- **C47, from the words typed** For every clean tree, every line in the documented forms and every word
at the cursor: if the completion function of the reached command comes to option strings, it offers
exactly the strings that have to be offered, given the options typed before. Different options typed
must have different variables (see C48). -/
theorem C47_typed_partial (root : Cmd) (blocks : List Block) (hb : bashBlocks root = .ok blocks)
    (hc : CleanTree root) (hn : CleanNames root) (ho : CleanOptions root)
    (optAt : List Str → Str → Option Opt) (hopt : KnowsOptions root optAt)
    (its : List Item) (e : Ending) (cur : Str) (post : List Str) (parents : List Cmd) (c : Cmd)
    (hr : Reached root (its.flatMap Item.positionals) parents c)
    (hv : ItemsValid (fun ps s => (optAt ps s).map Opt.kind) [] its)
    (he : e.Valid (fun s => (optAt (its.flatMap Item.positionals) s).map Opt.kind))
    (isRegex : Str → Bool) (code : OptionCode) (hcode : optionCode isRegex parents c = .ok code)
    (hcheck : ∀ o ∈ c.data.options, o.check = true) (rx : Bool → Str → Str → Bool)
    (typed : List (Opt × Str))
    (htyped : typed = itemOptions optAt [] its ++ lastOptions (optAt (its.flatMap Item.positionals)) cur e)
    (hvars : ∀ x, x ∈ c.data.options ∨ FinalHere parents c x → ∀ p ∈ typed, captureVariable p.1 = captureVariable x → p.1 = x)
    (hnames : ∀ p ∈ typed, (captureVariable p.1).head? ≠ some '-')
    (hwhen : ∀ o ∈ c.data.options, o.hidden = false → ∀ w, o.when_ = some w → ∀ ts, parseWhen isRegex w = .ok ts →
      (∃ e, Denotes ts e) ∧ ∀ c, .cmd c ∈ ts → condSafe c)
    (w : Str) :
    let st := bashParseV2 (bashParts root) blocks (switchCases root) (its.flatMap Item.words ++ e.words) cur post
    w ∈ code.offers rx st.arrays st.endOfOptions cur ↔
      Offered parents c isRegex (fun x => ∃ v, (x, v) ∈ typed)
        (holdsEach (fun a b => namedVariable c.data.options a == namedVariable c.data.options b) rx
          ⟨typed.map (fun p => (captureVariable p.1, p.2)), st.positionals⟩) e.isDashes cur w := by
  intro st
  have hst := C46_v2_partial root blocks hb hc hn ho optAt hopt its e cur post parents c hr hv he
  have hlog : st.log = typed.map (fun p => (captureVariable p.1, p.2)) := by
    simp only [st, hst]
    rw [itemEntries_eq _ _ _ hv, lastEntries_eq _ _ _ he, htyped, List.map_append]
  have hend : st.endOfOptions = e.isDashes := by simp only [st, hst]
  rw [← hend]
  exact offered_typed isRegex parents c code hcode hcheck rx typed st hlog hvars hnames hwhen cur w

/-- A command with exclusive options, a final option, a hidden one, and one that depends on another. -/
def exampleOffers : Cmd :=
  .node { prog := S "prog", options := [
    { strings := [S "-v", S "--verbose"], repeatable := .val true },
    { strings := [S "--in"], groups := some [S "g"], repeatable := .val false },
    { strings := [S "--out"], groups := some [S "g"], repeatable := .val false, complete := some [], longSep := .both },
    { strings := [S "--debug"], hidden := true, repeatable := .val false },
    { strings := [S "--level"], when_ := some (S "has_option -v || positional_count '>' 1"), repeatable := .val false },
    { strings := [S "--help"], final := true, repeatable := .val false }] } none []

theorem example_when : parseWhen (fun _ => true) (S "has_option -v || positional_count '>' 1") =
    .ok [.cmd (.hasOption [S "-v"]), .or, .cmd (.positionalCount .gt 1)] := by
  have hr : S "has_option -v || positional_count '>' 1" = renderCommands
      [.cmd [S "has_option", S "-v"], .or, .cmd [S "positional_count", S ">", S "1"]] := by decide
  unfold parseWhen
  rw [hr, C06_parse_render [.cmd [S "has_option", S "-v"], .or, .cmd [S "positional_count", S ">", S "1"]] _
    (.or (.pipe (.cmd _)) (.cmd _)) (by intro ws h; simp at h; rcases h with rfl | rfl <;> simp)]
  rfl

/-- What is offered after the given options. -/
def exampleOffered (given : List Str) (cur : Str) : Option (List Str) :=
  (optionCode (fun _ => true) [] exampleOffers).toOption.map (fun code =>
    code.offers (fun _ _ _ => false) ⟨fun v => if given.contains v then [S "_OPT_ISSET_"] else [], []⟩ false cur)

theorem C47_example :
    exampleOffered [] (S "-") = some [S "-v", S "--verbose", S "--help", S "--in", S "--out="] ∧
    exampleOffered [S "OPT_verbose", S "OPT_in"] (S "-") = some [S "-v", S "--verbose", S "--help", S "--level"] ∧
    exampleOffered [S "OPT_verbose"] (S "--l") = some [S "--level"] ∧
    exampleOffered [S "OPT_help"] (S "-") = some [] := by
  have h : (optionCode (fun _ => true) [] exampleOffers).toOption = some
    ⟨[S "OPT_help"], [([], [S "-v", S "--verbose", S "--help"]),
      ([.cmd (.noneSet [S "OPT_in", S "OPT_out"])], [S "--in", S "--out="]),
      ([.cmd (.noneSet [S "OPT_level"]), .and, .lpar, .cmd (.when_ (.anySet [S "OPT_verbose"])), .or,
        .cmd (.when_ (.posCount .gt 1)), .rpar], [S "--level"])]⟩ := by
    simp only [optionCode, exampleOffers, Cmd.data, List.filter, mapE, optEntry, example_when, Bool.not_false, Bool.not_true]
    decide +kernel
  unfold exampleOffered
  rw [h]
  decide +kernel

/-- The example meets the conditions on `when`. -/
theorem C47_example_hypotheses :
    (∀ o ∈ exampleOffers.data.options, o.check = true) ∧
    ∀ o ∈ exampleOffers.data.options, o.hidden = false → ∀ w, o.when_ = some w → ∀ ts, parseWhen (fun _ => true) w = .ok ts →
      (∃ e, Denotes ts e) ∧ ∀ c, .cmd c ∈ ts → condSafe c := by
  refine ⟨by decide, ?_⟩
  intro o ho _ w hw ts hts
  have : w = S "has_option -v || positional_count '>' 1" := by
    simp only [exampleOffers, Cmd.data, List.mem_cons, List.not_mem_nil, or_false] at ho
    rcases ho with rfl | rfl | rfl | rfl | rfl | rfl <;> simp at hw
    exact hw.symm
  subst this
  rw [example_when] at hts
  cases hts
  refine ⟨⟨_, .or (.pipe (.cmd _)) (.cmd _)⟩, ?_⟩
  intro c hc
  simp at hc
  rcases hc with rfl | rfl <;> simp [condSafe]

end CC
