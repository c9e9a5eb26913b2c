import Verif.Lemmas.BashArmsText
import Verif.Lemmas.BashBlocksRun
/-!
# Lemmas: reading the lines of `__complete_option`
-/

namespace CC
namespace ArmsLex
open BashArms
open BashText (between)

/-! ## The lines of a code -/

theorem clause_ind {l : Str} (h : strip l ≠ []) : ind 2 (ind 4 l) = S "      " ++ l := by
  obtain ⟨c, hc, hs⟩ := (stripTruthy_iff l).mp ((strip_truthy l).mpr h)
  rw [ind_of hc hs, ind_of (c := c) (by simp [hc]) hs]
  rfl

theorem code_lines {code : Str} (h : CompleteCode code) : (codeL code).map (ind 2) = clauseLines code := by
  unfold codeL clauseLines
  by_cases hc : code = []
  · simp [hc]
  · rw [if_neg (by simpa using hc), if_neg hc, List.map_map]
    rcases h with h | ⟨h, -⟩
    · exact absurd h hc
    · apply List.map_congr_left
      intro l hl
      rw [Function.comp_apply]
      by_cases hs : strip l = []
      · rw [if_pos hs, h l hl hs, ind_nil, ind_nil]
      · rw [if_neg hs, clause_ind hs]

theorem clauseLines_deep {code : Str} (h : CompleteCode code) {n : Nat} (hn : n < 6) : ∀ l ∈ clauseLines code, deep n l := by
  intro l hl
  unfold clauseLines at hl
  by_cases hc : code = []
  · rw [if_pos hc] at hl; cases hl
  · rw [if_neg hc] at hl
    rcases h with h | ⟨h, -⟩
    · exact absurd h hc
    · obtain ⟨x, hx, rfl⟩ := List.mem_map.mp hl
      by_cases hs : strip x = []
      · rw [if_pos hs]; exact .inl (h x hx hs)
      · rw [if_neg hs]; exact deep_of hn x

/-- The last line of a code. -/
theorem clauseLines_last {code : Str} (h : CompleteCode code) (hc : code ≠ []) : ∃ init l c, clauseLines code = init ++ [S "      " ++ l] ∧
    codeL code = (codeL code).dropLast ++ [S "    " ++ l] ∧ init = (codeL code).dropLast.map (ind 2) ∧ strip l ≠ [] ∧
    l.getLast? = some c ∧ c ≠ ';' ∧ c ≠ '\\' ∧ comment true l = false ∧ BashOffers.trimmed l ≠ S "return 0" := by
  have hcl := code_lines h
  rcases h with h | ⟨-, l, c, h1, h2, h3, h4, h5, h6, h7⟩
  · exact absurd h hc
  · obtain ⟨init, hi⟩ := List.getLast?_eq_some_iff.mp h1
    have e : codeL code = init.map (ind 4) ++ [S "    " ++ l] := by
      unfold codeL
      rw [if_neg (by simpa using hc), hi, List.map_append, List.map_cons, List.map_nil]
      congr 2
      obtain ⟨d, hd, hs⟩ := (stripTruthy_iff l).mp ((strip_truthy l).mpr h5)
      rw [ind_of hd hs]
      rfl
    have e2 : (codeL code).dropLast = init.map (ind 4) := by rw [e, List.dropLast_concat]
    refine ⟨(codeL code).dropLast.map (ind 2), l, c, ?_, by rw [e2]; exact e, rfl, h5, h2, h3, h4, h6, h7⟩
    rw [← hcl, e2, e, List.map_append, List.map_cons, List.map_nil]
    congr 2
    obtain ⟨d, hd, hs⟩ := (stripTruthy_iff l).mp ((strip_truthy l).mpr h5)
    rw [ind_of (c := d) (by simp [hd]) hs]
    rfl

theorem ended_lines {code : Str} (h : CompleteCode code) (hc : code ≠ []) : (ended (codeL code)).map (ind 2) = ended (clauseLines code) := by
  obtain ⟨init, l, c, e1, e2, e3, h5, -⟩ := clauseLines_last h hc
  rw [e1]
  unfold ended
  rw [List.dropLast_concat, List.getLast?_concat, List.map_append, ← e3]
  congr 1
  rw [e2, List.getLast?_concat]
  simp only [Option.getD_some, List.map_cons, List.map_nil]
  rw [ind_of (c := ';') (by simp [S]) (by decide)]
  rfl

theorem ended_deep {code : Str} (h : CompleteCode code) (hc : code ≠ []) {n : Nat} (hn : n < 6) : ∀ l ∈ ended (clauseLines code), deep n l := by
  obtain ⟨init, l, c, e1, -⟩ := clauseLines_last h hc
  have hd := clauseLines_deep h hn
  intro x hx
  rw [e1] at hx hd
  unfold ended at hx
  rw [List.dropLast_concat, List.getLast?_concat] at hx
  rcases List.mem_append.mp hx with hx | hx
  · exact hd x (by simp [hx])
  · simp only [List.mem_singleton, Option.getD_some] at hx
    rw [hx, List.append_assoc]
    exact deep_of hn _

theorem comment_blanks (n : Nat) (l : Str) : comment true (List.replicate n ' ' ++ l) = comment true l := by
  induction n with
  | zero => rfl
  | succ n ih =>
    rw [List.replicate_succ, List.cons_append, comment]
    simpa using ih

theorem foreign_code {code : Str} (h : CompleteCode code) : foreign (clauseLines code) = some (clauseLines code) := by
  by_cases hc : code = []
  · rw [hc]; rfl
  · obtain ⟨init, l, c, e1, -, -, h5, h2, h3, h4, h6, -⟩ := clauseLines_last h hc
    have hl : (S "      " ++ l).getLast? = some c := by
      rw [List.getLast?_append, h2]; rfl
    rw [e1]
    unfold foreign
    rw [List.getLast?_concat]
    simp only
    rw [if_neg (by rw [show S "      " = List.replicate 6 ' ' from rfl, comment_blanks, h6]; simp), hl]
    simp only
    rw [if_neg (by simp [h3, h4])]

theorem trimmed_blanks (n : Nat) (l : Str) : BashOffers.trimmed (List.replicate n ' ' ++ l) = BashOffers.trimmed l := by
  induction n with
  | zero => rfl
  | succ n ih => rw [List.replicate_succ, List.cons_append]; exact ih

theorem lines_return {code : Str} (h : CompleteCode code) : readLines (clauseLines code ++ [S "      return 0"]) = some (.code (clauseLines code) true) := by
  unfold readLines
  rw [List.getLast?_concat, if_pos (by rfl), List.dropLast_concat, foreign_code h]
  rfl

theorem lines_plain {code : Str} (h : CompleteCode code) : readLines (clauseLines code) = some (.code (clauseLines code) false) := by
  unfold readLines
  rw [if_neg, foreign_code h]
  · rfl
  · by_cases hc : code = []
    · rw [hc]; simp [clauseLines]
    · obtain ⟨init, l, c, e1, -, -, -, -, -, -, -, h7⟩ := clauseLines_last h hc
      rw [e1, List.getLast?_concat, Option.map_some, show S "      " = List.replicate 6 ' ' from rfl, trimmed_blanks]
      intro e
      exact h7 (Option.some.inj e)

/-! ## Clauses -/

theorem pat_head {t : Str} (h : BashText.Pat t) (u : Str) : (t ++ u) ≠ [] ∧ (t ++ u).head? ≠ some ' ' := by
  cases t with
  | nil => exact absurd h.readable (by simp [readGlob])
  | cons c t =>
    obtain ⟨h1, -⟩ := BashText.special_first h.readable
    refine ⟨by simp, ?_⟩
    simpa using h1

/-- A clause as a group. -/
def returnGroup (cl : List Str × Str) : Str × List Str := (makePattern cl.1 ++ S ")", clauseLines cl.2 ++ [S "      return 0;;"])

def plainGroup (cl : List Str × Str) : Str × List Str :=
  if cl.2.isEmpty then (makePattern cl.1 ++ S ");;", []) else (makePattern cl.1 ++ S ")", ended (clauseLines cl.2))

/-- The pattern of a clause can be read, and its code is complete. -/
def GoodClause (cl : List Str × Str) : Prop := BashText.Pat (makePattern cl.1) ∧ CompleteCode cl.2

theorem pattern_ind (t u : Str) : ind 2 (S "  " ++ t ++ (')' :: u)) = List.replicate 4 ' ' ++ (t ++ ')' :: u) := by
  rw [ind_of (c := ')') (by simp) (by decide)]
  simp [S, List.replicate_succ]

theorem returnClause_lines {cl : List Str × Str} (h : GoodClause cl) :
    (returnClauseLines cl).map (ind 2) = (List.replicate 4 ' ' ++ (returnGroup cl).1) :: (returnGroup cl).2 := by
  unfold returnClauseLines returnGroup
  rw [List.map_cons, List.map_append, code_lines h.2]
  congr 1
  exact pattern_ind _ []

theorem plainClause_lines {cl : List Str × Str} (h : GoodClause cl) :
    (plainClauseLines cl).map (ind 2) = (List.replicate 4 ' ' ++ (plainGroup cl).1) :: (plainGroup cl).2 := by
  unfold plainClauseLines plainGroup
  by_cases hc : cl.2 = []
  · simp only [hc, List.isEmpty_nil, if_true, List.map_cons, List.map_nil]
    congr 1
    exact pattern_ind _ (S ";;")
  · have : cl.2.isEmpty = false := by simpa using hc
    simp only [this, Bool.false_eq_true, if_false, List.map_cons]
    rw [ended_lines h.2 hc]
    congr 1
    exact pattern_ind _ []

theorem read_return {cl : List Str × Str} (h : GoodClause cl) : readClause (returnGroup cl) = some (makePattern cl.1, .code (clauseLines cl.2) true) := by
  unfold readClause returnGroup
  rw [show makePattern cl.1 ++ S ")" = makePattern cl.1 ++ ')' :: [] from rfl, BashCalls.span_pattern h.1, Option.bind_some,
    if_neg (by simp), if_neg (by simp), if_pos rfl, List.getLast?_concat, Option.bind_some,
    show S "      return 0;;" = S "      return 0" ++ ";;".toList from rfl, BashWrap.between_suffix, Option.bind_some, List.dropLast_concat, lines_return h.2]
  rfl

theorem read_plain {cl : List Str × Str} (h : GoodClause cl) : readClause (plainGroup cl) = some (makePattern cl.1, .code (clauseLines cl.2) false) := by
  unfold readClause plainGroup
  by_cases hc : cl.2 = []
  · simp only [hc, List.isEmpty_nil, if_true]
    rw [show makePattern cl.1 ++ S ");;" = makePattern cl.1 ++ ')' :: S ";;" from rfl, BashCalls.span_pattern h.1, Option.bind_some, if_pos ⟨rfl, rfl⟩]
    rfl
  · have hf : cl.2.isEmpty = false := by simpa using hc
    obtain ⟨init, l, c, e1, -⟩ := clauseLines_last h.2 hc
    have e2 : ended (clauseLines cl.2) = init ++ [(S "      " ++ l) ++ ";;".toList] := by
      rw [e1]; unfold ended; rw [List.dropLast_concat, List.getLast?_concat]; rfl
    simp only [hf, Bool.false_eq_true, if_false]
    rw [show makePattern cl.1 ++ S ")" = makePattern cl.1 ++ ')' :: [] from rfl, BashCalls.span_pattern h.1, Option.bind_some,
      if_neg (by simp), if_neg (by simp), if_pos rfl, e2, List.getLast?_concat, Option.bind_some, BashWrap.between_suffix, Option.bind_some, List.dropLast_concat,
      ← e1, lines_plain h.2]
    rfl

theorem read_star : readClause (S "*) ret=1;;", []) = some (['*'], .setRet) := by
  unfold readClause
  have hp : BashText.Pat ['*'] := ⟨by decide +kernel, by decide, by decide⟩
  rw [show S "*) ret=1;;" = ['*'] ++ ')' :: S " ret=1;;" from rfl, BashCalls.span_pattern hp, Option.bind_some, if_neg (by decide +kernel), if_pos ⟨rfl, rfl⟩]

/-- The groups of clauses. -/
theorem group_clauses {f : List Str × Str → List Str} {g : List Str × Str → Str × List Str} {rest : List Str} {gs : List (Str × List Str)}
    (hr : group 4 rest = some ([], gs)) : ∀ (cls : List (List Str × Str)),
    (∀ cl ∈ cls, f cl = (List.replicate 4 ' ' ++ (g cl).1) :: (g cl).2 ∧ (g cl).1 ≠ [] ∧ (g cl).1.head? ≠ some ' ' ∧ ∀ l ∈ (g cl).2, deep 4 l) →
    group 4 (cls.flatMap f ++ rest) = some ([], cls.map g ++ gs)
  | [], _ => hr
  | cl :: cls, h => by
    obtain ⟨h1, h2, h3, h4⟩ := h cl (by simp)
    have ih := group_clauses hr cls (fun x hx => h x (by simp [hx]))
    have := group_head h2 h3 (group_deep ih (g cl).2 h4)
    rw [List.flatMap_cons, h1, List.append_assoc, List.cons_append, this]
    simp

theorem returnGroup_good {cl : List Str × Str} (h : GoodClause cl) :
    (returnGroup cl).1 ≠ [] ∧ (returnGroup cl).1.head? ≠ some ' ' ∧ ∀ l ∈ (returnGroup cl).2, deep 4 l := by
  refine ⟨(pat_head h.1 _).1, (pat_head h.1 _).2, ?_⟩
  intro l hl
  rcases List.mem_append.mp hl with hl | hl
  · exact clauseLines_deep h.2 (by omega) l hl
  · simp only [List.mem_singleton] at hl
    rw [hl]
    exact deep_of (k := 6) (by omega) (S "return 0;;")

theorem plainGroup_good {cl : List Str × Str} (h : GoodClause cl) :
    (plainGroup cl).1 ≠ [] ∧ (plainGroup cl).1.head? ≠ some ' ' ∧ ∀ l ∈ (plainGroup cl).2, deep 4 l := by
  unfold plainGroup
  by_cases hc : cl.2 = []
  · simp only [hc, List.isEmpty_nil, if_true]
    exact ⟨(pat_head h.1 _).1, (pat_head h.1 _).2, by simp⟩
  · have hf : cl.2.isEmpty = false := by simpa using hc
    simp only [hf, Bool.false_eq_true, if_false]
    exact ⟨(pat_head h.1 _).1, (pat_head h.1 _).2, ended_deep h.2 hc (by omega)⟩

/-- The lines of clauses belong to `case`. -/
theorem clauses_deep {f : List Str × Str → List Str} {g : List Str × Str → Str × List Str} {cls : List (List Str × Str)}
    (h : ∀ cl ∈ cls, f cl = (List.replicate 4 ' ' ++ (g cl).1) :: (g cl).2 ∧ ∀ l ∈ (g cl).2, deep 4 l) : ∀ l ∈ cls.flatMap f, deep 2 l := by
  intro l hl
  obtain ⟨cl, hcl, hl⟩ := List.mem_flatMap.mp hl
  obtain ⟨h1, h2⟩ := h cl hcl
  rw [h1] at hl
  rcases List.mem_cons.mp hl with rfl | hl
  · exact deep_of (by omega) _
  · rcases h2 l hl with h | ⟨r, h⟩
    · exact .inl h
    · right
      rw [← h]
      exact ⟨List.replicate 2 ' ' ++ r, by rw [← List.append_assoc, List.replicate_append_replicate]⟩

/-! ## Statements -/

/-- Lines are read as statements, whatever follows behind an empty line. -/
def ReadsAs (L : List Str) (ss : List Stmt) : Prop :=
  ∀ rest gs, group 2 rest = some ([], gs) → ∃ gs', group 2 (L ++ [] :: rest) = some ([], gs') ∧ readStmts gs' = (readStmts gs).map (fun x => ss ++ x)

theorem group_empty {n : Nat} {rest : List Str} {gs : List (Str × List Str)} (h : group n rest = some ([], gs)) : group n ([] :: rest) = some ([[]], gs) :=
  group_deep h [[]] (by intro l hl; exact .inl (by simpa using hl))

theorem without_self (p u : Str) : BashText.without p (p ++ u) = some u := by
  unfold BashText.without
  rw [if_pos (by simp), List.drop_left]

/-- A `case` statement. -/
theorem reads_cases {C : List Str} (hC : ∀ l ∈ C, deep 2 l) {gs4 : List (Str × List Str)} (hg : group 4 C = some ([], gs4))
    {cl : List (Str × Act)} (hcl : BashText.allSome (gs4.map readClause) = some cl) :
    ReadsAs (S "  case \"$opt\" in" :: (C ++ [S "  esac"])) [.cases cl] := by
  intro rest gs hr
  have h1 := group_empty hr
  have h2 := group_head (x := S "esac") (by decide) (by decide) h1
  have h3 := group_head (x := S "case \"$opt\" in") (by decide +kernel) (by decide +kernel) (group_deep h2 C hC)
  refine ⟨_, by
    rw [List.cons_append, List.append_assoc]
    exact h3, ?_⟩
  rw [readStmts, show BashText.without "case \"$opt\" in".toList (S "case \"$opt\" in") = some [] from without_self (S "case \"$opt\" in") []]
  simp only [List.append_nil]
  rw [if_pos ⟨rfl, rfl⟩]
  unfold groups
  rw [hg, Option.bind_some, if_pos rfl, Option.bind_some, hcl, Option.bind_some]
  rfl

theorem reads_returns {cls : List (List Str × Str)} (h : ∀ cl ∈ cls, GoodClause cl) :
    ReadsAs ((stmtLines [] (.cases cls)).map (ind 2)) [.cases (cls.map (fun cl => (makePattern cl.1, .code (clauseLines cl.2) true)))] := by
  have hg : ∀ cl ∈ cls, (returnClauseLines cl).map (ind 2) = (List.replicate 4 ' ' ++ (returnGroup cl).1) :: (returnGroup cl).2 ∧ (returnGroup cl).1 ≠ [] ∧
      (returnGroup cl).1.head? ≠ some ' ' ∧ ∀ l ∈ (returnGroup cl).2, deep 4 l := fun cl hcl => ⟨returnClause_lines (h cl hcl), returnGroup_good (h cl hcl)⟩
  have h1 := group_clauses (f := fun cl => (returnClauseLines cl).map (ind 2)) (g := returnGroup) (rest := []) (gs := []) rfl cls hg
  rw [List.append_nil, List.append_nil] at h1
  have h2 := clauses_deep (f := fun cl => (returnClauseLines cl).map (ind 2)) (g := returnGroup) (cls := cls) (fun cl hcl => ⟨(hg cl hcl).1, (hg cl hcl).2.2.2⟩)
  have h3 := reads_cases h2 h1 (cl := cls.map (fun cl => (makePattern cl.1, .code (clauseLines cl.2) true))) (by
    rw [List.map_map]
    exact BlocksLex.allSome_somes _ _ _ (fun cl hcl => by rw [Function.comp_apply, read_return (h cl hcl)]))
  rw [stmtLines, List.map_cons, List.map_append, List.map_flatMap]
  exact h3

theorem reads_plains {cls : List (List Str × Str)} (h : ∀ cl ∈ cls, GoodClause cl) :
    ReadsAs ((stmtLines [] (.casesRet cls)).map (ind 2)) [.cases (cls.map (fun cl => (makePattern cl.1, .code (clauseLines cl.2) false)) ++ [(['*'], .setRet)])] := by
  have hg : ∀ cl ∈ cls, (plainClauseLines cl).map (ind 2) = (List.replicate 4 ' ' ++ (plainGroup cl).1) :: (plainGroup cl).2 ∧ (plainGroup cl).1 ≠ [] ∧
      (plainGroup cl).1.head? ≠ some ' ' ∧ ∀ l ∈ (plainGroup cl).2, deep 4 l := fun cl hcl => ⟨plainClause_lines (h cl hcl), plainGroup_good (h cl hcl)⟩
  have h0 : group 4 [S "    *) ret=1;;"] = some ([], [(S "*) ret=1;;", [])]) := by decide +kernel
  have h1 := group_clauses (f := fun cl => (plainClauseLines cl).map (ind 2)) (g := plainGroup) h0 cls hg
  have h2 := clauses_deep (f := fun cl => (plainClauseLines cl).map (ind 2)) (g := plainGroup) (cls := cls) (fun cl hcl => ⟨(hg cl hcl).1, (hg cl hcl).2.2.2⟩)
  have h2' : ∀ l ∈ cls.flatMap (fun cl => (plainClauseLines cl).map (ind 2)) ++ [S "    *) ret=1;;"], deep 2 l := by
    intro l hl
    rcases List.mem_append.mp hl with hl | hl
    · exact h2 l hl
    · simp only [List.mem_singleton] at hl
      rw [hl]
      exact deep_of (k := 4) (by omega) (S "*) ret=1;;")
  have h3 := reads_cases h2' h1 (cl := cls.map (fun cl => (makePattern cl.1, .code (clauseLines cl.2) false)) ++ [(['*'], .setRet)]) (by
    rw [List.map_append, List.map_map]
    have := BlocksLex.allSome_somes (fun x : Option (Str × Act) => x) (fun x => x.getD ([], .setRet))
      (cls.map (readClause ∘ plainGroup) ++ [readClause (S "*) ret=1;;", [])]) (by
        intro x hx
        rcases List.mem_append.mp hx with hx | hx
        · obtain ⟨cl, hcl, rfl⟩ := List.mem_map.mp hx
          rw [Function.comp_apply, read_plain (h cl hcl)]; rfl
        · simp only [List.mem_singleton] at hx
          rw [hx, read_star]; rfl)
    simp only [List.map_id'] at this
    rw [List.map_cons, List.map_nil, this, List.map_append, List.map_map, List.map_cons, List.map_nil, read_star]
    congr 2
    apply List.map_congr_left
    intro cl hcl
    rw [Function.comp_apply, Function.comp_apply, read_plain (h cl hcl)]; rfl)
  rw [stmtLines, List.map_cons, List.map_append, List.map_flatMap]
  have e : S "  case \"$opt\" in" :: (cls.flatMap (fun cl => (plainClauseLines cl).map (ind 2)) ++ [S "    *) ret=1;;"] ++ [S "  esac"]) =
      ind 2 (S "case \"$opt\" in") :: (cls.flatMap (fun cl => (plainClauseLines cl).map (ind 2)) ++ [S "  *) ret=1;;", S "esac"].map (ind 2)) := by
    rw [List.append_assoc]
    rfl
  rw [← e]
  exact h3

theorem stmts_simple {l : Str} {b : List Str} {s : Stmt} (hb : empty b = true) (hw : BashText.without "case \"$opt\" in".toList l = none) (hs : BashArms.readSimple l = some s)
    (gs : List (Str × List Str)) : readStmts ((l, b) :: gs) = (readStmts gs).map (fun x => s :: x) := by
  conv => lhs; unfold readStmts
  rw [hw]
  simp only
  rw [if_pos hb, hs]
  rfl

theorem reads_simple {l : Str} {s : Stmt} (hne : l ≠ []) (hb : l.head? ≠ some ' ') (hw : BashText.without "case \"$opt\" in".toList l = none) (hs : BashArms.readSimple l = some s) :
    ReadsAs [List.replicate 2 ' ' ++ l] [s] := by
  intro rest gs hr
  exact ⟨_, group_head hne hb (group_empty hr), stmts_simple rfl hw hs gs⟩

theorem reads_mode : ReadsAs ((stmtLines [] .mode).map (ind 2)) [.mode (S "WITH_OPTIONAL")] :=
  reads_simple (l := S "[[ \"$mode\" == WITH_OPTIONAL ]] || return 1") (by decide +kernel) (by decide +kernel) (by decide +kernel) (by rfl)

theorem reads_check : ReadsAs ((stmtLines [] .checkRet).map (ind 2)) [.found, .mode (S "WITH_OPTIONAL"), .clear] := by
  intro rest gs hr
  have h1 := group_head (x := S "ret=0") (by decide +kernel) (by decide +kernel) (group_empty hr)
  have h2 := group_head (x := S "[[ \"$mode\" == WITH_OPTIONAL ]] || return 1") (by decide +kernel) (by decide +kernel) h1
  have h3 := group_head (x := S "(( ! ret )) && return 0") (by decide +kernel) (by decide +kernel) h2
  refine ⟨_, h3, ?_⟩
  have w1 : BashText.without "case \"$opt\" in".toList (S "(( ! ret )) && return 0") = none := by decide +kernel
  have w2 : BashText.without "case \"$opt\" in".toList (S "[[ \"$mode\" == WITH_OPTIONAL ]] || return 1") = none := by decide +kernel
  have w3 : BashText.without "case \"$opt\" in".toList (S "ret=0") = none := by decide +kernel
  have r1 : BashArms.readSimple (S "(( ! ret )) && return 0") = some .found := by rfl
  have r2 : BashArms.readSimple (S "[[ \"$mode\" == WITH_OPTIONAL ]] || return 1") = some (.mode (S "WITH_OPTIONAL")) := by rfl
  have r3 : BashArms.readSimple (S "ret=0") = some .clear := by rfl
  rw [stmts_simple rfl w1 r1, stmts_simple rfl w2 r2, stmts_simple rfl w3 r3, Option.map_map, Option.map_map]
  rfl

/-- A `case` with a condition. -/
theorem reads_if {strings : List Str} {code t cond : Str} (hp : BashText.Pat (makePattern strings)) (hc : CompleteCode code)
    {e : ShellGrammar.Expr ZshText.Simple} (he : readList t = some e) :
    ReadsAs ((stmtLines t (.ifCase strings cond code)).map (ind 2)) [.ifCase (makePattern strings) e (clauseLines code)] := by
  have e1 : (stmtLines t (.ifCase strings cond code)).map (ind 2) =
      (List.replicate 2 ' ' ++ (S "case \"$opt\" in " ++ makePattern strings ++ S ")")) ::
        (((List.replicate 4 ' ' ++ (S "if " ++ t ++ S "; then")) :: (clauseLines code ++ [S "      return 0", List.replicate 4 ' ' ++ S "fi;;"])) ++ [List.replicate 2 ' ' ++ S "esac"]) := by
    rw [stmtLines, List.map_cons, List.map_cons, List.map_append, code_lines hc, ind_of (c := ')') (by simp [S]) (by decide),
      ind_of (c := ';') (by simp [S]) (by decide)]
    simp only [List.cons_append, List.append_assoc]
    rfl
  rw [e1]
  intro rest gs hr
  have h1 := group_head (x := S "esac") (by decide) (by decide) (group_empty hr)
  have hdeep : ∀ l ∈ ((List.replicate 4 ' ' ++ (S "if " ++ t ++ S "; then")) :: (clauseLines code ++ [S "      return 0", List.replicate 4 ' ' ++ S "fi;;"])), deep 2 l := by
    intro l hl
    simp only [List.mem_cons, List.mem_append, List.not_mem_nil, or_false] at hl
    rcases hl with rfl | hl | rfl | rfl
    · exact deep_of (by omega) _
    · exact clauseLines_deep hc (by omega) l hl
    · exact deep_of (k := 6) (by omega) (S "return 0")
    · exact deep_of (by omega) _
  have h2 := group_head (x := S "case \"$opt\" in " ++ makePattern strings ++ S ")") (by simp [S]) (by simp [S]) (group_deep h1 _ hdeep)
  have h2' := h2
  rw [show ∀ (a b : Str) (C D : List Str), a :: (C ++ b :: D) = a :: (C ++ [b]) ++ D from fun _ _ _ _ => by simp] at h2'
  refine ⟨_, h2', ?_⟩
  have w : BashText.without "case \"$opt\" in".toList (S "case \"$opt\" in " ++ makePattern strings ++ S ")") = some (' ' :: (makePattern strings ++ [')'])) := by
    have := without_self (S "case \"$opt\" in") (' ' :: (makePattern strings ++ [')']))
    rw [show S "case \"$opt\" in " ++ makePattern strings ++ S ")" = S "case \"$opt\" in" ++ (' ' :: (makePattern strings ++ [')'])) by simp [S]]
    exact this
  conv => lhs; unfold readStmts
  rw [w]
  simp only
  rw [if_pos ⟨rfl, rfl⟩, BashCalls.span_pattern hp, Option.bind_some, if_pos rfl]
  have g1 : group 4 [List.replicate 4 ' ' ++ S "fi;;"] = some ([], [(S "fi;;", [])]) := by decide +kernel
  have hdeep4 : ∀ l ∈ clauseLines code ++ [S "      return 0"], deep 4 l := by
    intro l hl
    simp only [List.mem_append, List.mem_singleton] at hl
    rcases hl with hl | rfl
    · exact clauseLines_deep hc (by omega) l hl
    · exact deep_of (k := 6) (by omega) (S "return 0")
  have g2 := group_head (x := S "if " ++ t ++ S "; then") (by simp [S]) (by simp [S]) (group_deep g1 _ hdeep4)
  have hif : readIf (makePattern strings) (((List.replicate 4 ' ' ++ (S "if " ++ t ++ S "; then")) :: (clauseLines code ++ [S "      return 0", List.replicate 4 ' ' ++ S "fi;;"])) ++ []) =
      some (.ifCase (makePattern strings) e (clauseLines code)) := by
    unfold readIf groups
    rw [List.append_nil, show clauseLines code ++ [S "      return 0", List.replicate 4 ' ' ++ S "fi;;"] = clauseLines code ++ [S "      return 0"] ++ [List.replicate 4 ' ' ++ S "fi;;"] by simp, g2]
    simp only [Option.bind_some, if_true, List.append_nil]
    rw [if_pos ⟨rfl, trivial⟩]
    have hb : between "if ".toList "; then".toList (S "if " ++ t ++ S "; then") = some t := by
      unfold between
      rw [List.append_assoc, show BashText.without "if ".toList (S "if " ++ (t ++ S "; then")) = some (t ++ S "; then") from without_self _ _, Option.bind_some,
        if_pos (by simp [S])]
      simp [S]
    rw [hb, Option.bind_some, he, Option.bind_some, lines_return hc]
    rfl
  rw [hif]
  rfl

end ArmsLex
end CC
