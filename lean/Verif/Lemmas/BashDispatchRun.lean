import Verif.Lemmas.BashDispatchText
/-!
# Lemmas: running the clauses of the dispatcher
-/

namespace CC
namespace DispatchLex
open BashText (isName)
open BashDispatch

variable {ε : Type}

/-- The functions of the script do what the model says. -/
structure Agrees (env : Env ε) (ev : BEvent → ε) (prefixed : Str) (complete : Str → Bool → List Str × Bool) : Prop where
  call : ∀ (o v : Str) (m : List Str), m.length ≤ 1 → env.call (S "__complete_option") (o :: v :: m) =
    some ((complete o (decide (m = [S "WITH_OPTIONAL"]))).1.map (fun code => ev (.arg code v [])), (complete o (decide (m = [S "WITH_OPTIONAL"]))).2)
  pre : ∀ (p v : Str) (codes : List Str), env.prefixed prefixed p (codes.map (fun code => ev (.arg code v []))) = some (codes.map (fun code => ev (.arg code v p)))
  fail : ∀ (o : Str) (m : Bool), (complete o m).2 = false → (complete o m).1 = []

theorem mode_length (optionals m : Bool) : (modeArgs optionals m).length ≤ 1 := by cases optionals <;> simp [modeArgs]

theorem mode_value {complete : Str → Bool → List Str × Bool} {optionals : Bool} (hopt : optionals = false → ∀ o, complete o true = complete o false) (o : Str) (m : Bool) :
    complete o (decide (modeArgs optionals m = [S "WITH_OPTIONAL"])) = complete o m := by
  unfold modeArgs
  cases optionals with
  | true => cases m <;> rfl
  | false =>
    rw [show (decide ((if false = true then [if m = true then S "WITH_OPTIONAL" else S "WITHOUT_OPTIONAL"] else []) = [S "WITH_OPTIONAL"])) = false from rfl]
    cases m with
    | true => exact (hopt rfl o).symm
    | false => rfl

theorem loop_run {env : Env ε} {ev : BEvent → ε} {prefixed : Str} {complete : Str → Bool → List Str × Bool} (h : Agrees env ev prefixed complete)
    {optionals : Bool} (hopt : optionals = false → ∀ o, complete o true = complete o false) : ∀ (value pre : Str),
    BashDispatch.loop env (S "__complete_option") prefixed (modeArgs optionals true) pre value =
      some ((letterLoop complete pre value).1.map ev, (letterLoop complete pre value).2)
  | [], pre => rfl
  | c :: value, pre => by
    rw [BashDispatch.loop, h.call _ _ _ (mode_length _ _), mode_value hopt, Option.bind_some]
    simp only [letterLoop]
    cases hr : (complete ['-', c] true).2 with
    | true =>
      simp only [if_true]
      rw [h.pre]
      simp
    | false =>
      simp only [Bool.false_eq_true, if_false]
      rw [loop_run h hopt value (pre ++ [c]), h.fail _ _ hr]
      simp

/-- A clause that does in Bash what it does in the model. -/
def OkStep (env : Env ε) (ev : BEvent → ε) (prefixed : Str) (complete : Str → Bool → List Str × Bool) (optionals : Bool) (prev cur : Str) (a : DAct) : Prop :=
  (stepOf optionals prefixed a).run env prev cur = some ((DAct.run complete prev cur a).1.map ev, (DAct.run complete prev cur a).2)

theorem last_letter (prev : Str) : prev.drop (prev.length - 1) = (prev.getLast?.map (fun c => [c])).getD [] := by
  rcases List.eq_nil_or_concat prev with rfl | ⟨a, c, rfl⟩
  · rfl
  · rw [List.concat_eq_append, List.getLast?_concat]
    simp

theorem ok_step {env : Env ε} {ev : BEvent → ε} {prefixed : Str} {complete : Str → Bool → List Str × Bool} (h : Agrees env ev prefixed complete)
    {optionals : Bool} (hopt : optionals = false → ∀ o, complete o true = complete o false) (prev cur : Str) (a : DAct)
    (hl : a = .loop → ∃ t, cur = '-' :: t) (he : a = .eq → '=' ∈ cur) : OkStep env ev prefixed complete optionals prev cur a := by
  unfold OkStep
  cases a with
  | nop => rfl
  | word =>
    show env.call _ _ = _
    rw [h.call _ _ _ (mode_length _ _), mode_value hopt]
    simp [DAct.run, Word.value]
  | last =>
    show env.call _ _ = _
    rw [h.call _ _ _ (mode_length _ _), mode_value hopt]
    simp [DAct.run, Word.value, last_letter]
  | eq =>
    show env.call _ _ = _
    rw [h.call _ _ _ (mode_length _ _), mode_value hopt]
    simp [DAct.run, Word.value, he rfl, beforeEq, afterEq]
  | loop =>
    obtain ⟨t, rfl⟩ := hl rfl
    show BashDispatch.loop env _ _ _ (List.take 1 ('-' :: t)) (List.drop 1 ('-' :: t)) = _
    exact loop_run h hopt t ['-']

/-- The clauses that are run from here on are fine. -/
def OkRun (env : Env ε) (ev : BEvent → ε) (prefixed : Str) (complete : Str → Bool → List Str × Bool) (optionals : Bool) (prev cur : Str) : List DClause → Prop
  | [] => True
  | cl :: r => OkStep env ev prefixed complete optionals prev cur cl.act ∧ (cl.through = true → OkRun env ev prefixed complete optionals prev cur r)

theorem run_from {env : Env ε} {ev : BEvent → ε} {prefixed : Str} {complete : Str → Bool → List Str × Bool} {optionals : Bool} {prev cur : Str} : ∀ {cls : List DClause},
    OkRun env ev prefixed complete optionals prev cur cls → runFrom env prev cur (cls.map (toClause optionals prefixed)) =
      some ((runClauses (DAct.run complete prev cur) cls).1.map ev, (runClauses (DAct.run complete prev cur) cls).2)
  | [], _ => rfl
  | cl :: r, h => by
    obtain ⟨h1, h2⟩ := h
    unfold OkStep at h1
    rw [List.map_cons, runFrom]
    simp only [toClause, runClauses]
    rw [h1, Option.bind_some]
    cases hr : (DAct.run complete prev cur cl.act).2 with
    | true => simp [hr]
    | false =>
      simp only [Bool.false_eq_true, if_false]
      by_cases ht : cl.through = true
      · refine (if_pos ht).trans ?_
        rw [if_pos ht, run_from (h2 ht)]
        simp
      · refine (if_neg ht).trans ?_
        rw [if_neg ht, hr]

theorem select_clauses {optionals : Bool} {prefixed : Str} (w : Str) : ∀ (cls : List DClause), (∀ cl ∈ cls, GoodPat cl.pat) →
    select w (cls.map (toClause optionals prefixed)) = some ((cls.dropWhile (fun cl => !cl.pat.matches w)).map (toClause optionals prefixed))
  | [], _ => rfl
  | cl :: r, h => by
    obtain ⟨alts, ha, hm⟩ := pat_means (h cl (by simp))
    rw [List.map_cons, select]
    show (readGlob caseCtx (patText cl.pat)).bind _ = _
    rw [ha, Option.bind_some]
    cases hp : cl.pat.matches w with
    | true =>
      rw [if_pos ((hm w).mpr hp), List.dropWhile_cons_of_neg (by simp [hp])]
      rfl
    | false =>
      rw [if_neg (fun e => by rw [(hm w).mp e] at hp; cases hp), List.dropWhile_cons_of_pos (by simp [hp])]
      exact select_clauses w r (fun c hc => h c (by simp [hc]))

theorem run_case {env : Env ε} {ev : BEvent → ε} {prefixed : Str} {complete : Str → Bool → List Str × Bool} {optionals : Bool} {prev cur : Str} (w : Str) {cls : List DClause}
    (hg : ∀ cl ∈ cls, GoodPat cl.pat) (hok : OkRun env ev prefixed complete optionals prev cur (cls.dropWhile (fun cl => !cl.pat.matches w))) :
    (select w (cls.map (toClause optionals prefixed))).bind (runFrom env prev cur) =
      some ((runCase (DAct.run complete prev cur) w cls).1.map ev, (runCase (DAct.run complete prev cur) w cls).2) := by
  rw [select_clauses w cls hg, Option.bind_some, run_from hok]
  rfl

theorem ok_all {env : Env ε} {ev : BEvent → ε} {prefixed : Str} {complete : Str → Bool → List Str × Bool} {optionals : Bool} {prev cur : Str} : ∀ {cls : List DClause},
    (∀ cl ∈ cls, OkStep env ev prefixed complete optionals prev cur cl.act) → OkRun env ev prefixed complete optionals prev cur cls
  | [], _ => trivial
  | cl :: r, h => ⟨h cl (by simp), fun _ => ok_all (fun c hc => h c (by simp [hc]))⟩

/-- The order of the clauses: those that cut at `=` are entered by their pattern only. -/
def GoodSeq : List DClause → Prop
  | [] => True
  | cl :: r => (cl.act = .eq → cl.pat = .longEq ∨ cl.pat = .dashEq) ∧ (cl.through = true → ∀ c ∈ r, c.act ≠ .eq) ∧ GoodSeq r

theorem ok_drop {env : Env ε} {ev : BEvent → ε} {prefixed : Str} {complete : Str → Bool → List Str × Bool} (h : Agrees env ev prefixed complete)
    {optionals : Bool} (hopt : optionals = false → ∀ o, complete o true = complete o false) (prev cur : Str) : ∀ {cls : List DClause}, (∀ cl ∈ cls, GoodPat cl.pat) → GoodSeq cls →
    OkRun env ev prefixed complete optionals prev cur (cls.dropWhile (fun cl => !cl.pat.matches cur))
  | [], _, _ => trivial
  | cl :: r, hg, ⟨h1, h2, h3⟩ => by
    cases hp : cl.pat.matches cur with
    | false =>
      rw [List.dropWhile_cons_of_pos (by simp [hp])]
      exact ok_drop h hopt prev cur (fun c hc => hg c (by simp [hc])) h3
    | true =>
      rw [List.dropWhile_cons_of_neg (by simp [hp])]
      have hd := dash_of (hg cl (by simp)) hp
      refine ⟨ok_step h hopt prev cur _ (fun _ => hd) ?_, fun ht => ok_all (fun c hc => ok_step h hopt prev cur _ (fun _ => hd) (fun e => absurd e (h2 ht c hc)))⟩
      intro he
      rcases h1 he with e | e
      · rw [e] at hp
        simp only [DPat.matches, Bool.and_eq_true, List.contains_iff_mem] at hp
        exact List.mem_of_mem_drop hp.2
      · rw [e] at hp
        simp only [DPat.matches, Bool.and_eq_true, List.contains_iff_mem] at hp
        exact List.mem_of_mem_drop hp.2

theorem cur_seq (i : DispatchInfo) : GoodSeq (curClauses i) := by
  unfold curClauses
  generalize (i.shortRequired || i.shortOptional) = short
  generalize (i.longRequired || i.longOptional) = long
  generalize (i.oldRequired || i.oldOptional) = old
  generalize i.oldStrings.isEmpty = olds
  cases short <;> cases long <;> cases old <;> cases olds <;> simp [GoodSeq]

theorem prev_acts (i : DispatchInfo) : ∀ cl ∈ prevClauses i, cl.act ≠ .loop ∧ cl.act ≠ .eq := by
  unfold prevClauses
  cases i.longRequired <;> cases i.oldRequired <;> cases i.shortRequired <;> simp

theorem prev_good {i : DispatchInfo} (hletters : ∀ c ∈ i.noArgs ++ i.requiredArgs ++ i.optionalArgs, PlainLetter c) (hreq : i.shortRequired = true → i.requiredArgs ≠ []) :
    ∀ cl ∈ prevClauses i, GoodClauseD cl := by
  have hs : i.shortRequired = true → GoodPat (.shortEnd i.noArgs i.requiredArgs) := fun h => ⟨hreq h, fun c hc => hletters c (List.mem_append_left _ hc)⟩
  unfold prevClauses GoodClauseD
  cases h : i.shortRequired with
  | false => cases i.longRequired <;> cases i.oldRequired <;> simp [GoodPat]
  | true =>
    have := hs h
    cases i.longRequired <;> cases i.oldRequired <;> simp [this, show GoodPat .long from trivial, show GoodPat .dash from trivial]

theorem cur_good {i : DispatchInfo} (hletters : ∀ c ∈ i.noArgs ++ i.requiredArgs ++ i.optionalArgs, PlainLetter c)
    (hshort : (i.shortRequired || i.shortOptional) = true → i.requiredArgs ++ i.optionalArgs ≠ []) (hold : ∀ s ∈ i.oldStrings, OldString s) :
    ∀ cl ∈ curClauses i, GoodClauseD cl := by
  have hs : (i.shortRequired || i.shortOptional) = true → GoodPat (.shortAny i.noArgs (i.requiredArgs ++ i.optionalArgs)) :=
    fun h => ⟨hshort h, fun c hc => hletters c (by rw [List.append_assoc]; exact hc)⟩
  have ho : i.oldStrings.isEmpty = false → GoodPat (.olds i.oldStrings) := fun h => ⟨(by intro e; rw [e] at h; cases h), hold⟩
  have g1 : GoodPat .long := trivial
  have g2 : GoodPat .longEq := trivial
  have g3 : GoodPat .dashEq := trivial
  unfold curClauses GoodClauseD
  generalize (i.shortRequired || i.shortOptional) = short at *
  generalize (i.longRequired || i.longOptional) = long
  generalize (i.oldRequired || i.oldOptional) = old
  generalize i.oldStrings.isEmpty = olds at *
  cases short <;> cases long <;> cases old <;> cases olds <;> simp_all

end DispatchLex
end CC
