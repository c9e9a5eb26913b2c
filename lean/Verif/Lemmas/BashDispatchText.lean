import Verif.Lemmas.BashDispatchPat
import Verif.Lemmas.BashArmsRead
import Verif.Lemmas.BashWrapping
import Verif.Spec.BashDispatch
/-!
# Lemmas: the lines of the dispatcher, and reading them
-/

namespace CC
namespace DispatchLex
open BashArms (group groups)
open BashText (isName)
open BashDispatch
open ArmsLex (deep group_head group_deep deep_of)

/-! ## The lines -/

/-- The last argument of a call. -/
def modeArgs (optionals withOptional : Bool) : List Str := if optionals then [if withOptional then S "WITH_OPTIONAL" else S "WITHOUT_OPTIONAL"] else []

def modeText (optionals withOptional : Bool) : Str := if optionals then (if withOptional then S "WITH_OPTIONAL " else S "WITHOUT_OPTIONAL ") else []

def endText (through : Bool) : Str := if through then S "&& return 0;&" else S "&& return 0;;"

/-- What stands behind the pattern on its line, and the lines below. -/
def behindText (optionals : Bool) (prefixed : Str) (cl : DClause) : Str × List Str :=
  match cl.act with
  | .nop => (S ";;", [])
  | .word => ((if cl.pat = .long then S " " else S "  ") ++ S "__complete_option \"$prev\" \"$cur\" " ++ modeText optionals false ++ endText cl.through, [])
  | .last => ([], [S "       __complete_option \"-${prev: -1}\" \"$cur\" " ++ modeText optionals false ++ endText cl.through])
  | .eq => ([], [S "    __complete_option \"${cur%%=*}\" \"${cur#*=}\" " ++ modeText optionals true ++ endText cl.through])
  | .loop => ([], [S "    local i", S "    for ((i=2; i <= ${#cur}; ++i)); do", S "      local pre=\"${cur:0:$i}\" value=\"${cur:$i}\"",
      S "      __complete_option \"-${pre: -1}\" \"$value\" " ++ modeText optionals true ++ S "&& {", S "        " ++ (prefixed ++ S " \"$pre\""), S "        return 0", S "      }", S "    done;;"])

/-- The lines of a clause. -/
def clauseHead (optionals : Bool) (prefixed : Str) (cl : DClause) : Str := patText cl.pat ++ ')' :: (behindText optionals prefixed cl).1

def lines (optionals : Bool) (prefixed : Str) (cl : DClause) : List Str :=
  (List.replicate 2 ' ' ++ clauseHead optionals prefixed cl) :: (behindText optionals prefixed cl).2

/-- The lines of a `case`. -/
def caseLines (optionals : Bool) (prefixed head : Str) (cls : List DClause) : List Str := head :: (cls.flatMap (lines optionals prefixed) ++ [S "esac"])

theorem join_last (e : Str) : ∀ L : List Str, joinWith ['\n'] (L ++ [e]) = L.flatMap (fun l => l ++ ['\n']) ++ e
  | [] => by simp [joinWith]
  | [x] => by simp [joinWith]
  | x :: y :: L => by
    have := join_last e (y :: L)
    simp only [List.cons_append] at this ⊢
    rw [joinWith, this]
    simp

theorem case_text (optionals : Bool) (prefixed head : Str) (cls : List DClause) :
    joinWith ['\n'] (caseLines optionals prefixed head cls) = head ++ ['\n'] ++ (cls.flatMap (lines optionals prefixed)).flatMap (fun l => l ++ ['\n']) ++ S "esac" := by
  unfold caseLines
  rw [← List.cons_append, join_last]
  simp

set_option maxRecDepth 20000 in
theorem prev_text (optionals : Bool) (prefixed : Str) (i : DispatchInfo) :
    prevText optionals i = joinWith ['\n'] (caseLines optionals prefixed (S "case \"$prev\" in") (prevClauses i)) := by
  rw [case_text]
  unfold prevText prevClauses
  cases optionals <;> cases i.longRequired <;> cases i.oldRequired <;> cases i.shortRequired <;>
    simp [lines, clauseHead, behindText, patText, modeText, endText, S]

set_option maxRecDepth 20000 in
theorem cur_text (optionals : Bool) (prefixed : Str) (i : DispatchInfo) :
    curText optionals prefixed i = joinWith ['\n'] (caseLines optionals prefixed (S "case \"$cur\" in") (curClauses i)) := by
  rw [case_text]
  unfold curText curClauses
  generalize (i.shortRequired || i.shortOptional) = short
  generalize (i.longRequired || i.longOptional) = long
  generalize (i.oldRequired || i.oldOptional) = old
  generalize i.oldStrings.isEmpty = olds
  cases optionals <;> cases short <;> cases long <;> cases old <;> cases olds <;>
    simp [lines, clauseHead, behindText, patText, modeText, endText, S]

/-! ## Reading a clause -/

/-- What a clause does. -/
def stepOf (optionals : Bool) (prefixed : Str) : DAct → Step
  | .nop => .nop
  | .word => .call (S "__complete_option") .prev .cur (modeArgs optionals false)
  | .last => .call (S "__complete_option") .lastOfPrev .cur (modeArgs optionals false)
  | .eq => .call (S "__complete_option") .beforeEq .afterEq (modeArgs optionals true)
  | .loop => .loop (S "__complete_option") prefixed (modeArgs optionals true)

def toClause (optionals : Bool) (prefixed : Str) (cl : DClause) : Clause := ⟨patText cl.pat, stepOf optionals prefixed cl.act, cl.through⟩

/-- A clause that is written. -/
def GoodClauseD (cl : DClause) : Prop := GoodPat cl.pat ∧ (cl.act = .nop ∨ cl.act = .loop → cl.through = false)

theorem pat_break {p : DPat} (h : GoodPat p) : '\n' ∉ patText p := by
  have hl : ∀ c, PlainLetter c → c ≠ '\n' := by
    intro c hc e
    subst e
    exact hc (by decide)
  have ho : ∀ s, OldString s → '\n' ∉ s := by
    rintro s ⟨c, t, rfl, -, hc⟩ hm
    rcases List.mem_cons.mp hm with e | hm
    · exact absurd e (by decide)
    · exact (hc _ hm).2 (by decide)
  have hf : ∀ cs : Str, (∀ c ∈ cs, PlainLetter c) → '\n' ∉ flagsPattern cs := by
    intro cs hcs hm
    unfold flagsPattern at hm
    split at hm
    · cases hm
    · simp only [S, List.mem_append] at hm
      rcases hm with (hm | hm) | hm
      · exact absurd hm (by decide)
      · exact hl _ (hcs _ hm) rfl
      · exact absurd hm (by decide)
  cases p with
  | long => decide
  | dash => decide
  | longEq => decide
  | dashEq => decide
  | olds ss =>
    show '\n' ∉ oldPattern ss
    unfold oldPattern
    split
    · exact BashText.break_join (fun t ht => ho t (h.2 t ht))
    · intro hm
      simp only [S, List.mem_append] at hm
      rcases hm with (hm | hm) | hm
      · exact absurd hm (by decide)
      · refine BashText.break_join (fun t ht => ?_) hm
        obtain ⟨s, hs, rfl⟩ := List.mem_map.mp ht
        intro hx
        exact ho s (h.2 s hs) ((List.dropWhile_sublist _).subset hx)
      · exact absurd hm (by decide)
  | shortEnd flags args =>
    intro hm
    simp only [patText, S, List.mem_append] at hm
    rcases hm with (((hm | hm) | hm) | hm) | hm
    · exact absurd hm (by decide)
    · exact hf flags (fun c hc => h.2 c (by simp [hc])) hm
    · exact absurd hm (by decide)
    · exact hl _ (h.2 _ (by simp [hm])) rfl
    · exact absurd hm (by decide)
  | shortAny flags args =>
    intro hm
    simp only [patText, S, List.mem_append] at hm
    rcases hm with (((hm | hm) | hm) | hm) | hm
    · exact absurd hm (by decide)
    · exact hf flags (fun c hc => h.2 c (by simp [hc])) hm
    · exact absurd hm (by decide)
    · exact hl _ (h.2 _ (by simp [hm])) rfl
    · exact absurd hm (by decide)

/-- A word that matches begins with a dash. -/
theorem dash_of {p : DPat} (h : GoodPat p) {w : Str} (hm : p.matches w = true) : ∃ t, w = '-' :: t := by
  have hs : ∀ w : Str, startsWith w ['-'] = true → ∃ t, w = '-' :: t := by
    intro w h
    obtain ⟨t, rfl⟩ := (startsWith_iff _ _).mp h
    exact ⟨t, rfl⟩
  have hs2 : ∀ w : Str, startsWith w ['-', '-'] = true → ∃ t, w = '-' :: t := by
    intro w h
    obtain ⟨t, rfl⟩ := (startsWith_iff _ _).mp h
    exact ⟨_, rfl⟩
  cases p with
  | long => exact hs2 w hm
  | dash => exact hs w hm
  | longEq => exact hs2 w (by simp only [DPat.matches, Bool.and_eq_true] at hm; exact hm.1)
  | dashEq => exact hs w (by simp only [DPat.matches, Bool.and_eq_true] at hm; exact hm.1)
  | olds ss =>
    obtain ⟨c, t, rfl, -⟩ := h.2 w (by simpa [DPat.matches] using hm)
    exact ⟨_, rfl⟩
  | shortEnd flags args => exact hs w (by simp only [DPat.matches, Bool.and_eq_true] at hm; exact hm.1)
  | shortAny flags args => exact hs w (by simp only [DPat.matches, Bool.and_eq_true] at hm; exact hm.1)

theorem pat_pat {p : DPat} (h : GoodPat p) : BashText.Pat (patText p) := by
  refine BashText.pat_of (pat_means h) ⟨S "esac", ?_⟩ (pat_break h)
  intro e
  obtain ⟨t, ht⟩ := dash_of h (e.mpr rfl)
  cases ht

theorem head_dash {p : DPat} (h : GoodPat p) (x : Str) : (patText p ++ ')' :: x).head? = some '-' := by
  cases p with
  | olds ss =>
    obtain ⟨hne, hs⟩ := h
    show (oldPattern ss ++ _).head? = _
    unfold oldPattern
    split
    · cases ss with
      | nil => exact absurd rfl hne
      | cons s r =>
        obtain ⟨c, t, rfl, -⟩ := hs s (by simp)
        cases r <;> simp [joinWith]
    · rfl
  | _ => rfl

theorem trim_name {f : Str} (h : isName f = true) (t : Str) : BashOffers.trimmed (S "        " ++ (f ++ t)) = f ++ t := by
  have e : BashOffers.trimmed (S "        " ++ (f ++ t)) = BashOffers.trimmed (f ++ t) := ArmsLex.trimmed_blanks 8 (f ++ t)
  rw [e]
  cases f with
  | nil => cases h
  | cons c r =>
    have hc := List.all_eq_true.mp (BashText.isName_all h) c (by simp)
    unfold BashOffers.trimmed
    rw [List.cons_append, List.dropWhile_cons_of_neg]
    intro e
    simp only [beq_iff_eq] at e
    subst e
    exact absurd hc (by decide)

theorem read_clause {optionals : Bool} {prefixed : Str} (hp : isName prefixed = true) {cl : DClause} (h : GoodClauseD cl) :
    readClause (clauseHead optionals prefixed cl, (behindText optionals prefixed cl).2) = some (toClause optionals prefixed cl) := by
  obtain ⟨hpat, hthrough⟩ := h
  unfold readClause clauseHead
  rw [BashCalls.span_pattern (pat_pat hpat), Option.bind_some]
  have key : (readEnd ((((behindText optionals prefixed cl).1 :: (behindText optionals prefixed cl).2).map BashOffers.trimmed).filter (· != []))).bind (fun y =>
    (readStep y.1).map (fun s => (⟨patText cl.pat, s, y.2⟩ : Clause))) = some (toClause optionals prefixed cl) := by
    obtain ⟨p, act, through⟩ := cl
    simp only at hthrough
    cases act with
    | nop =>
      have := hthrough (.inl rfl)
      subst this
      rfl
    | word =>
      have : ∀ b : Bool, (readEnd ((([(if b then S " " else S "  ") ++ S "__complete_option \"$prev\" \"$cur\" " ++ modeText optionals false ++ endText through]).map BashOffers.trimmed).filter (· != []))).bind (fun y =>
          (readStep y.1).map (fun s => (s, y.2))) = some (stepOf optionals prefixed .word, through) := by
        intro b
        cases b <;> cases optionals <;> cases through <;> rfl
      have := this (decide (p = .long))
      simp only [decide_eq_true_eq] at this
      unfold behindText toClause
      simp only
      cases hr : readEnd ((([(if p = .long then S " " else S "  ") ++ S "__complete_option \"$prev\" \"$cur\" " ++ modeText optionals false ++ endText through]).map BashOffers.trimmed).filter (· != [])) with
      | none => rw [hr] at this; cases this
      | some y =>
        rw [hr, Option.bind_some] at this
        rw [Option.bind_some]
        cases hs : readStep y.1 with
        | none => rw [hs] at this; cases this
        | some s =>
          rw [hs] at this
          simp only [Option.map_some, Option.some.injEq, Prod.mk.injEq] at this
          simp only [Option.map_some, this.1, this.2]
    | last => cases optionals <;> cases through <;> rfl
    | eq => cases optionals <;> cases through <;> rfl
    | loop =>
      have := hthrough (.inr rfl)
      subst this
      have hne : ∃ c r, prefixed ++ S " \"$pre\"" = c :: r := by
        cases prefixed with
        | nil => exact ⟨_, _, rfl⟩
        | cons c r => exact ⟨_, _, rfl⟩
      have ht : BashOffers.trimmed (S "        " ++ (prefixed ++ S " \"$pre\"")) = prefixed ++ S " \"$pre\"" := trim_name hp _
      have hb := BashWrap.between_suffix prefixed (S " \"$pre\"")
      unfold behindText toClause
      simp only [List.map_cons, List.map_nil, ht]
      generalize hX : prefixed ++ S " \"$pre\"" = X at hne hb
      obtain ⟨c, r, rfl⟩ := hne
      have hstep : ∀ m : Bool, readLoop [S "local i", S "for ((i=2; i <= ${#cur}; ++i)); do", S "local pre=\"${cur:0:$i}\" value=\"${cur:$i}\"",
          S "__complete_option \"-${pre: -1}\" \"$value\" " ++ modeText m true ++ S "&& {", c :: r, S "return 0", S "}", S "done"] =
          some (.loop (S "__complete_option") prefixed (modeArgs m true)) := by
        intro m
        have hl4 : (BashText.spanName (S "__complete_option \"-${pre: -1}\" \"$value\" " ++ modeText m true ++ S "&& {")).bind (fun p =>
            (BashText.between " \"-${pre: -1}\" \"$value\"".toList " && {".toList p.2).bind (fun t => (readMode t).map (fun m => (p.1, m)))) =
            some (S "__complete_option", modeArgs m true) := by cases m <;> rfl
        unfold readLoop
        show (if _ then _ else _) = _
        rw [if_pos (by decide +kernel)]
        cases h1 : BashText.spanName (S "__complete_option \"-${pre: -1}\" \"$value\" " ++ modeText m true ++ S "&& {") with
        | none => rw [h1] at hl4; cases hl4
        | some p =>
          rw [h1, Option.bind_some] at hl4
          rw [Option.bind_some]
          cases h2 : BashText.between " \"-${pre: -1}\" \"$value\"".toList " && {".toList p.2 with
          | none => rw [h2] at hl4; cases hl4
          | some t =>
            rw [h2, Option.bind_some] at hl4
            rw [Option.bind_some]
            cases h3 : readMode t with
            | none => rw [h3] at hl4; cases hl4
            | some m' =>
              rw [h3] at hl4
              simp only [Option.map_some, Option.some.injEq, Prod.mk.injEq] at hl4
              rw [Option.bind_some]
              have hb' : BashText.between [] " \"$pre\"".toList (c :: r) = some prefixed := hb
              rw [hb', Option.bind_some, if_pos hp, hl4.1, hl4.2]
      cases optionals
      · have := hstep false
        exact congrArg (fun o => o.map (fun s => (⟨patText p, s, false⟩ : Clause))) this
      · have := hstep true
        exact congrArg (fun o => o.map (fun s => (⟨patText p, s, false⟩ : Clause))) this
  exact key

/-! ## Reading the text -/

theorem behind_deep (optionals : Bool) (prefixed : Str) (cl : DClause) : ∀ l ∈ (behindText optionals prefixed cl).2, ∃ n x, 4 ≤ n ∧ l = List.replicate n ' ' ++ x := by
  obtain ⟨p, act, through⟩ := cl
  intro l hl
  cases act with
  | nop => cases hl
  | word => cases hl
  | last =>
    simp only [behindText, List.mem_singleton] at hl
    subst hl
    exact ⟨7, S "__complete_option \"-${prev: -1}\" \"$cur\" " ++ modeText optionals false ++ endText through, by omega, rfl⟩
  | eq =>
    simp only [behindText, List.mem_singleton] at hl
    subst hl
    exact ⟨4, S "__complete_option \"${cur%%=*}\" \"${cur#*=}\" " ++ modeText optionals true ++ endText through, by omega, rfl⟩
  | loop =>
    simp only [behindText, List.mem_cons, List.not_mem_nil, or_false] at hl
    rcases hl with rfl | rfl | rfl | rfl | rfl | rfl | rfl | rfl
    · exact ⟨4, S "local i", by omega, rfl⟩
    · exact ⟨4, S "for ((i=2; i <= ${#cur}; ++i)); do", by omega, rfl⟩
    · exact ⟨6, S "local pre=\"${cur:0:$i}\" value=\"${cur:$i}\"", by omega, rfl⟩
    · exact ⟨6, S "__complete_option \"-${pre: -1}\" \"$value\" " ++ modeText optionals true ++ S "&& {", by omega, rfl⟩
    · exact ⟨8, prefixed ++ S " \"$pre\"", by omega, rfl⟩
    · exact ⟨8, S "return 0", by omega, rfl⟩
    · exact ⟨6, S "}", by omega, rfl⟩
    · exact ⟨4, S "done;;", by omega, rfl⟩

theorem group_lines {optionals : Bool} {prefixed : Str} : ∀ cls : List DClause, (∀ cl ∈ cls, GoodClauseD cl) →
    group 2 (cls.flatMap (lines optionals prefixed)) = some ([], cls.map (fun cl => (clauseHead optionals prefixed cl, (behindText optionals prefixed cl).2)))
  | [], _ => rfl
  | cl :: cls, h => by
    have ih := group_lines (optionals := optionals) (prefixed := prefixed) cls (fun c hc => h c (by simp [hc]))
    have hg := h cl (by simp)
    have hd : (clauseHead optionals prefixed cl).head? = some '-' := head_dash hg.1 _
    have := group_head (n := 2) (x := clauseHead optionals prefixed cl) (by intro e; rw [e] at hd; cases hd) (by rw [hd]; decide)
      (group_deep ih (behindText optionals prefixed cl).2 (by
        intro l hl
        obtain ⟨n, x, hn, rfl⟩ := behind_deep optionals prefixed cl l hl
        exact deep_of (by omega) x))
    simpa [lines] using this

theorem read_clauses {optionals : Bool} {prefixed : Str} (hp : isName prefixed = true) {cls : List DClause} (h : ∀ cl ∈ cls, GoodClauseD cl) :
    (groups 2 (cls.flatMap (lines optionals prefixed))).bind (fun gs => BashText.allSome (gs.map readClause)) = some (cls.map (toClause optionals prefixed)) := by
  unfold groups
  rw [group_lines cls h, Option.bind_some, if_pos rfl, Option.bind_some, List.map_map]
  exact BashCalls.allSome_map _ _ cls (fun cl hcl => read_clause hp (h cl hcl))

theorem deep_lines {optionals : Bool} {prefixed : Str} (cls : List DClause) : ∀ l ∈ cls.flatMap (lines optionals prefixed), deep 0 l := by
  intro l hl
  obtain ⟨cl, -, hl⟩ := List.mem_flatMap.mp hl
  rcases List.mem_cons.mp hl with rfl | hl
  · exact deep_of (by omega) _
  · obtain ⟨n, x, hn, rfl⟩ := behind_deep optionals prefixed cl l hl
    exact deep_of (by omega) x

theorem group_case {optionals : Bool} {prefixed head : Str} (hh : head ≠ []) (hb : head.head? ≠ some ' ') (cls : List DClause) {rest c : List Str} {gs : List (Str × List Str)}
    (hr : group 0 rest = some (c, gs)) :
    group 0 (caseLines optionals prefixed head cls ++ rest) = some ([], (head, cls.flatMap (lines optionals prefixed)) :: (S "esac", c) :: gs) := by
  have h1 := group_head (n := 0) (x := S "esac") (by decide) (by decide) hr
  have h2 := group_deep h1 (cls.flatMap (lines optionals prefixed)) (deep_lines cls)
  have h3 := group_head (n := 0) hh hb h2
  simpa [caseLines] using h3

/-- The cases of the text. -/
def casesOf (i : DispatchInfo) : List (Word × List DClause) :=
  let required := i.shortRequired || i.longRequired || i.oldRequired
  let optional := i.shortOptional || i.longOptional || i.oldOptional
  (if required then [(.prev, prevClauses i)] else []) ++ (if required || optional then [(.cur, curClauses i)] else [])

theorem clause_break {optionals : Bool} {prefixed : Str} (hp : isName prefixed = true) {cl : DClause} (h : GoodClauseD cl) : ∀ l ∈ lines optionals prefixed cl, '\n' ∉ l := by
  have hpn : '\n' ∉ prefixed := fun hm => absurd (List.all_eq_true.mp (BashText.isName_all hp) _ hm) (by decide)
  obtain ⟨p, act, through⟩ := cl
  intro l hl
  rcases List.mem_cons.mp hl with rfl | hl
  · intro hm
    simp only [clauseHead, List.mem_append, List.mem_cons] at hm
    rcases hm with hm | hm | hm | hm
    · exact absurd hm (by decide)
    · exact pat_break h.1 hm
    · exact absurd hm (by decide)
    · cases act with
      | word =>
        simp only [behindText, List.mem_append] at hm
        rcases hm with ((hm | hm) | hm) | hm
        · split at hm <;> exact absurd hm (by decide)
        · exact absurd hm (by decide +kernel)
        · cases optionals <;> exact absurd hm (by decide)
        · cases through <;> exact absurd hm (by decide)
      | _ => exact absurd hm (by simp [behindText, S])
  · cases act with
    | nop => cases hl
    | word => cases hl
    | last =>
      simp only [behindText, List.mem_singleton] at hl
      subst hl
      cases optionals <;> cases through <;> decide +kernel
    | eq =>
      simp only [behindText, List.mem_singleton] at hl
      subst hl
      cases optionals <;> cases through <;> decide +kernel
    | loop =>
      simp only [behindText, List.mem_cons, List.not_mem_nil, or_false] at hl
      rcases hl with rfl | rfl | rfl | rfl | rfl | rfl | rfl | rfl
      · decide +kernel
      · decide +kernel
      · decide +kernel
      · cases optionals <;> decide +kernel
      · intro hm
        simp only [S, List.mem_append] at hm
        rcases hm with hm | hm | hm
        · exact absurd hm (by decide)
        · exact hpn hm
        · exact absurd hm (by decide)
      · decide +kernel
      · decide +kernel
      · decide +kernel

theorem case_break {optionals : Bool} {prefixed head : Str} (hp : isName prefixed = true) (hh : '\n' ∉ head) {cls : List DClause} (h : ∀ cl ∈ cls, GoodClauseD cl) :
    ∀ l ∈ caseLines optionals prefixed head cls, '\n' ∉ l := by
  intro l hl
  unfold caseLines at hl
  rcases List.mem_cons.mp hl with rfl | hl
  · exact hh
  · rcases List.mem_append.mp hl with hl | hl
    · obtain ⟨cl, hcl, hl⟩ := List.mem_flatMap.mp hl
      exact clause_break hp (h cl hcl) l hl
    · rw [List.mem_singleton] at hl
      subst hl
      decide

theorem read_cases {optionals : Bool} {prefixed : Str} (hp : isName prefixed = true) {w : Word} {head : Str} (hw : (w = .prev ∧ head = S "case \"$prev\" in") ∨ (w = .cur ∧ head = S "case \"$cur\" in"))
    {cls : List DClause} (h : ∀ cl ∈ cls, GoodClauseD cl) {s : List Str} (hs : BashArms.empty s = true) {r : List (Str × List Str)} {q : List (Word × List Clause)} (hr : readCases r = some q) :
    readCases ((head, cls.flatMap (lines optionals prefixed)) :: (S "esac", s) :: r) = some ((w, cls.map (toClause optionals prefixed)) :: q) := by
  have hc := read_clauses (optionals := optionals) hp h
  rw [readCases, if_pos ⟨rfl, hs⟩]
  have e : (if head = "case \"$prev\" in".toList then some Word.prev else if head = "case \"$cur\" in".toList then some Word.cur else none) = some w := by
    rcases hw with ⟨rfl, rfl⟩ | ⟨rfl, rfl⟩ <;> rfl
  rw [e, Option.bind_some]
  cases hg : groups 2 (cls.flatMap (lines optionals prefixed)) with
  | none => rw [hg] at hc; cases hc
  | some gs =>
    rw [hg, Option.bind_some] at hc
    rw [Option.bind_some, hc, Option.bind_some, hr]
    rfl

theorem read_text {optionals : Bool} {prefixed : Str} (hp : isName prefixed = true) {i : DispatchInfo} (hne : casesOf i ≠ []) (h : ∀ c ∈ casesOf i, ∀ cl ∈ c.2, GoodClauseD cl) :
    BashDispatch.read (dispatcherText optionals prefixed i) = some ((casesOf i).map (fun c => (c.1, c.2.map (toClause optionals prefixed)))) := by
  unfold casesOf at h hne ⊢
  unfold dispatcherText
  simp only at h hne ⊢
  generalize (i.shortRequired || i.longRequired || i.oldRequired) = required at *
  generalize (i.shortOptional || i.longOptional || i.oldOptional) = optional at *
  unfold BashDispatch.read
  cases required with
  | true =>
    simp only [if_true, Bool.true_or] at h ⊢
    have hpv : ∀ cl ∈ prevClauses i, GoodClauseD cl := fun cl hcl => h (.prev, prevClauses i) (by simp) cl hcl
    have hcv : ∀ cl ∈ curClauses i, GoodClauseD cl := fun cl hcl => h (.cur, curClauses i) (by simp) cl hcl
    have e : joinWith (S "\n\n") ([prevText optionals i] ++ [curText optionals prefixed i]) =
        joinWith ['\n'] (caseLines optionals prefixed (S "case \"$prev\" in") (prevClauses i) ++ ([[]] ++ caseLines optionals prefixed (S "case \"$cur\" in") (curClauses i))) := by
      have hne : ∀ (h : Str) (cls : List DClause), caseLines optionals prefixed h cls ≠ [] := fun h cls => by unfold caseLines; exact List.cons_ne_nil _ _
      have e1 := BlocksLex.joinWith_append ['\n'] (caseLines optionals prefixed (S "case \"$prev\" in") (prevClauses i)) ([[]] ++ caseLines optionals prefixed (S "case \"$cur\" in") (curClauses i)) (hne _ _) (by simp)
      have e2 := BlocksLex.joinWith_append ['\n'] [[]] (caseLines optionals prefixed (S "case \"$cur\" in") (curClauses i)) (by simp) (hne _ _)
      rw [e1, e2, ← prev_text, ← cur_text]
      simp [joinWith, S]
    rw [e, splitOn_join _ _ (by simp) (by
      intro l hl
      simp only [List.mem_append, List.mem_singleton] at hl
      rcases hl with hl | rfl | hl
      · exact case_break hp (by decide) hpv l hl
      · simp
      · exact case_break hp (by decide) hcv l hl)]
    unfold groups
    have g1 := group_case (optionals := optionals) (prefixed := prefixed) (head := S "case \"$cur\" in") (by decide) (by decide) (curClauses i) (rest := []) (c := []) (gs := []) rfl
    rw [List.append_nil] at g1
    have g2 := group_deep g1 [[]] (by intro l hl; exact .inl (by simpa using hl))
    rw [group_case (head := S "case \"$prev\" in") (by decide) (by decide) (prevClauses i) g2, Option.bind_some, if_pos rfl, Option.bind_some]
    exact read_cases hp (.inl ⟨rfl, rfl⟩) hpv (by rfl) (read_cases hp (.inr ⟨rfl, rfl⟩) hcv (by rfl) rfl)
  | false =>
    cases optional with
    | false => exact absurd rfl hne
    | true =>
      simp only [Bool.false_eq_true, if_false, Bool.or_true, if_true, List.nil_append] at h ⊢
      have hcv : ∀ cl ∈ curClauses i, GoodClauseD cl := fun cl hcl => h (.cur, curClauses i) (by simp) cl hcl
      have e : joinWith (S "\n\n") [curText optionals prefixed i] = joinWith ['\n'] (caseLines optionals prefixed (S "case \"$cur\" in") (curClauses i)) := by
        rw [← cur_text]; rfl
      rw [e, splitOn_join _ _ (by simp [caseLines]) (case_break hp (by decide) hcv)]
      unfold groups
      have g1 := group_case (optionals := optionals) (prefixed := prefixed) (head := S "case \"$cur\" in") (by decide) (by decide) (curClauses i) (rest := []) (c := []) (gs := []) rfl
      rw [List.append_nil] at g1
      rw [g1, Option.bind_some, if_pos rfl, Option.bind_some]
      exact read_cases hp (.inr ⟨rfl, rfl⟩) hcv (by rfl) rfl

end DispatchLex
end CC
