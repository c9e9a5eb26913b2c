import Verif.Lemmas.BashArmsRead
import Verif.Lemmas.BashMatch
/-!
# Lemmas: running `__complete_option`
-/

namespace CC
namespace ArmsLex
open BashArms
open BashOffers (Env)

/-- The patterns of clauses match their strings. -/
def MeansStrings (cl : List Str × Str) : Prop := BashText.Means (makePattern cl.1) (fun w => w ∈ cl.1)

theorem choose_clauses {opt : Str} (ret : Bool) (rest : List (Str × Act)) : ∀ (cls : List (List Str × Str)), (∀ cl ∈ cls, MeansStrings cl) →
    choose opt (cls.map (fun cl => (makePattern cl.1, Act.code (clauseLines cl.2) ret)) ++ rest) =
      match clauseOf opt cls with
      | some code => some (some (.code (clauseLines code) ret))
      | none => choose opt rest
  | [], _ => rfl
  | cl :: cls, h => by
    have ih := choose_clauses (opt := opt) ret rest cls (fun x hx => h x (by simp [hx]))
    obtain ⟨alts, h1, h2⟩ := h cl (by simp)
    rw [List.map_cons, List.cons_append, choose, h1, Option.bind_some]
    unfold clauseOf at ih ⊢
    rw [List.find?_cons]
    by_cases hm : opt ∈ cl.1
    · rw [if_pos ((h2 opt).mpr hm)]
      have : cl.1.contains opt = true := by simpa using hm
      simp only [this, Option.map_some]
    · rw [if_neg (fun hx => hm ((h2 opt).mp hx)), ih]
      have : cl.1.contains opt = false := by simpa using hm
      simp only [this]

theorem choose_star (opt : Str) : choose opt [(['*'], Act.setRet)] = some (some .setRet) := by
  obtain ⟨alts, h1, h2⟩ := BashText.means_star
  rw [choose, h1, Option.bind_some, if_pos ((h2 opt).mpr trivial)]

/-- The statements of the text that stand for one of the model. -/
inductive Same (env : Env) (holds : Str → Bool) : MStmt → List Stmt → Prop
  | ifCase {strings cond code e} : MeansStrings (strings, code) → BashBlocks.succeeds env e = some (holds cond) →
      Same env holds (.ifCase strings cond code) [.ifCase (makePattern strings) e (clauseLines code)]
  | cases {cls} : (∀ cl ∈ cls, MeansStrings cl) → Same env holds (.cases cls) [.cases (cls.map (fun cl => (makePattern cl.1, .code (clauseLines cl.2) true)))]
  | mode : Same env holds .mode [.mode (S "WITH_OPTIONAL")]
  | casesRet {cls} : (∀ cl ∈ cls, MeansStrings cl) →
      Same env holds (.casesRet cls) [.cases (cls.map (fun cl => (makePattern cl.1, .code (clauseLines cl.2) false)) ++ [(['*'], .setRet)])]
  | checkRet : Same env holds .checkRet [.found, .mode (S "WITH_OPTIONAL"), .clear]

/-- A list of statements. -/
inductive SameAll (env : Env) (holds : Str → Bool) : List MStmt → List Stmt → Prop
  | nil : SameAll env holds [] []
  | cons {s ss r rr} : Same env holds s ss → SameAll env holds r rr → SameAll env holds (s :: r) (ss ++ rr)

/-- The statement uses `mode`. -/
def needsMode : MStmt → Bool
  | .mode | .checkRet => true
  | _ => false

/-- The statement uses `ret`. -/
def needsRet : MStmt → Bool
  | .casesRet _ | .checkRet => true
  | _ => false

def flag (b : Bool) : Str := if b then S "0" else S "1"

/-- What the variables hold. -/
structure Holds (σ : Vars) (opt cur mode : Str) (stmts : List MStmt) (hasWhen ret : Bool) : Prop where
  opt : σ (S "opt") = some opt
  cur : σ (S "cur") = some cur
  mode : stmts.any needsMode = true → σ (S "mode") = some mode
  ret : hasWhen = false → σ (S "ret") = some (flag ret)
  noRet : hasWhen = true → stmts.any needsRet = false

theorem Holds.tail {σ : Vars} {opt cur mode : Str} {s : MStmt} {r : List MStmt} {w ret : Bool} (h : Holds σ opt cur mode (s :: r) w ret) : Holds σ opt cur mode r w ret where
  opt := h.opt
  cur := h.cur
  mode hm := h.mode (by simp [hm])
  ret := h.ret
  noRet hw := by
    have := h.noRet hw
    simp only [List.any_cons, Bool.or_eq_false_iff] at this
    exact this.2

theorem Holds.set {σ : Vars} {opt cur mode : Str} {r : List MStmt} {w ret : Bool} (h : Holds σ opt cur mode r w ret) (b : Bool) :
    Holds (σ.set (S "ret") (flag b)) opt cur mode r w b where
  opt := by rw [Vars.set, if_neg (by decide +kernel)]; exact h.opt
  cur := by rw [Vars.set, if_neg (by decide +kernel)]; exact h.cur
  mode hm := by rw [Vars.set, if_neg (by decide +kernel)]; exact h.mode hm
  ret _ := by rw [Vars.set, if_pos rfl]
  noRet := h.noRet

theorem flag_zero (b : Bool) : flag b = "0".toList ↔ b = true := by cases b <;> decide +kernel

/-- Running the text does what the model says. -/
theorem run_same {env : Env} {holds : Str → Bool} {args : List Str} {opt cur mode : Str} {hasWhen : Bool} {stmts : List MStmt} {ss : List Stmt}
    (h : SameAll env holds stmts ss) : ∀ {σ : Vars} {ret : Bool}, Holds σ opt cur mode stmts hasWhen ret →
    run env args σ (ss ++ [if hasWhen then .fail else .ret]) =
      some ((runMaster holds opt (decide (mode = S "WITH_OPTIONAL")) hasWhen stmts ret).1.map (fun code => (clauseLines code, cur)),
        (runMaster holds opt (decide (mode = S "WITH_OPTIONAL")) hasWhen stmts ret).2) := by
  induction h with
  | nil =>
    intro σ ret hσ
    cases hasWhen with
    | true => simp [run, runMaster]
    | false =>
      simp only [Bool.false_eq_true, if_false, List.nil_append, run, runMaster, List.map_nil]
      rw [show σ "ret".toList = some (flag ret) from hσ.ret rfl, Option.bind_some]
      cases ret <;> decide +kernel
  | @cons s ss r rr hs hr ih =>
    intro σ ret hσ
    have hopt : σ "opt".toList = some opt := hσ.opt
    have hcur : σ "cur".toList = some cur := hσ.cur
    rw [List.append_assoc]
    cases hs with
    | @ifCase strings cond code e hm he =>
      have hc := choose_clauses (opt := opt) true [] [(strings, code)] (by intro cl hcl; simp only [List.mem_singleton] at hcl; rw [hcl]; exact hm)
      simp only [List.map_cons, List.map_nil, List.cons_append, List.nil_append] at hc
      rw [List.cons_append, List.nil_append, run, hopt, Option.bind_some, hcur, Option.bind_some, hc, runMaster]
      unfold clauseOf
      by_cases ho : strings.contains opt = true
      · simp only [List.find?_cons, ho, Option.map_some, Option.bind_some, he, Bool.true_and]
        cases hh : holds cond with
        | true => simp
        | false =>
          simp only [Bool.false_eq_true, if_false]
          exact ih hσ.tail
      · simp only [Bool.not_eq_true] at ho
        simp only [List.find?_cons, ho, List.find?_nil, Option.map_none, Bool.false_and, Bool.false_eq_true, if_false]
        exact ih hσ.tail
    | @cases cls hm =>
      have hc := choose_clauses (opt := opt) true [] cls hm
      rw [List.append_nil] at hc
      rw [List.cons_append, List.nil_append, run, hopt, Option.bind_some, hcur, Option.bind_some, hc, runMaster]
      cases hk : clauseOf opt cls with
      | some code => simp
      | none =>
        simp only
        rw [choose, Option.bind_some]
        exact ih hσ.tail
    | mode =>
      have hmode : σ "mode".toList = some mode := hσ.mode (by simp [needsMode])
      rw [List.cons_append, List.nil_append, run, hmode, Option.bind_some, runMaster]
      by_cases hm : mode = S "WITH_OPTIONAL"
      · rw [if_pos hm, if_pos (show decide (mode = S "WITH_OPTIONAL") = true by simpa using hm)]
        exact ih hσ.tail
      · rw [if_neg hm, if_neg (show ¬ decide (mode = S "WITH_OPTIONAL") = true by simpa using hm)]
        rfl
    | @casesRet cls hm =>
      have hw : hasWhen = false := by
        cases hw : hasWhen with
        | false => rfl
        | true => have := hσ.noRet hw; simp [needsRet] at this
      have hc := choose_clauses (opt := opt) false [(['*'], Act.setRet)] cls hm
      rw [List.cons_append, List.nil_append, run, hopt, Option.bind_some, hcur, Option.bind_some, hc, runMaster]
      cases hk : clauseOf opt cls with
      | some code =>
        simp only [Option.bind_some]
        rw [ih hσ.tail]
        rfl
      | none =>
        simp only
        rw [choose_star, Option.bind_some]
        exact ih (hσ.tail.set false)
    | checkRet =>
      have hw : hasWhen = false := by
        cases hw : hasWhen with
        | false => rfl
        | true => have := hσ.noRet hw; simp [needsRet] at this
      have hmode : σ "mode".toList = some mode := hσ.mode (by simp [needsMode])
      have hret : σ "ret".toList = some (flag ret) := hσ.ret hw
      rw [List.cons_append, List.cons_append, List.cons_append, List.nil_append, run, hret, Option.bind_some, runMaster]
      cases ret with
      | true => rw [if_pos (by decide +kernel)]; rfl
      | false =>
        rw [if_neg (by decide +kernel), if_pos (by decide +kernel), run, hmode, Option.bind_some]
        simp only [Bool.false_eq_true, if_false]
        by_cases hm : mode = S "WITH_OPTIONAL"
        · rw [if_pos hm, if_pos (show decide (mode = S "WITH_OPTIONAL") = true by simpa using hm), run]
          exact ih (hσ.tail.set true)
        · rw [if_neg hm, if_neg (show ¬ decide (mode = S "WITH_OPTIONAL") = true by simpa using hm)]
          rfl

end ArmsLex
end CC
