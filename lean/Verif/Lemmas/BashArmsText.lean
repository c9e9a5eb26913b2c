import Verif.Spec.CompleteCode
import Verif.Model.BashMasterText
import Verif.Lemmas.BashBlocksText
import Verif.Lemmas.BashCalls
import Verif.Lemmas.BashPlainText
/-!
# Lemmas: the lines of `__complete_option`
-/

namespace CC
namespace ArmsLex
open BashArms
open BashText (Pat between)
open BlocksLex (joinWith_append split_join_append)

/-- An indented line. -/
def ind (n : Nat) (l : Str) : Str := if stripTruthy l then List.replicate n ' ' ++ l else l

theorem ind_nil (n : Nat) : ind n [] = [] := by
  unfold ind
  rw [if_neg (by decide)]

theorem ind_of {n : Nat} {l : Str} {c : Char} (hc : c ∈ l) (hs : pyIsSpace c = false) : ind n l = List.replicate n ' ' ++ l := by
  unfold ind
  rw [if_pos ((stripTruthy_iff l).mpr ⟨c, hc, hs⟩)]

theorem ind_nl {n : Nat} {l : Str} (h : '\n' ∉ l) : '\n' ∉ ind n l := by
  unfold ind
  split
  · simp only [List.mem_append, not_or]
    exact ⟨by simp [List.mem_replicate], h⟩
  · exact h

theorem indent_joined (n : Nat) {L : List Str} (hne : L ≠ []) (h : ∀ l ∈ L, '\n' ∉ l) : indent (joinWith ['\n'] L) n = joinWith ['\n'] (L.map (ind n)) := by
  unfold indent
  rw [splitOn_join _ _ hne h]
  rfl

theorem strip_truthy (l : Str) : stripTruthy l = true ↔ strip l ≠ [] := by
  unfold stripTruthy
  simp

/-! ## The lines of statements -/

/-- The lines of a code. -/
def codeL (code : Str) : List Str := if code.isEmpty then [] else (splitOn '\n' code).map (ind 4)

theorem codeL_nl (code : Str) : ∀ l ∈ codeL code, '\n' ∉ l := by
  intro l hl
  unfold codeL at hl
  split at hl
  · cases hl
  · obtain ⟨x, hx, rfl⟩ := List.mem_map.mp hl
    exact ind_nl (splitOn_no_sep '\n' code x hx)

theorem indent_codeL {code : Str} (h : code ≠ []) : indent code 4 = joinWith ['\n'] (codeL code) := by
  unfold codeL
  rw [if_neg (by simpa using h)]
  rfl

theorem codeL_ne {code : Str} (h : code ≠ []) : codeL code ≠ [] := by
  unfold codeL
  rw [if_neg (by simpa using h)]
  intro e
  exact splitOn_ne_nil '\n' code (List.map_eq_nil_iff.mp e)

/-- `;;` behind the last line. -/
def ended (ls : List Str) : List Str := ls.dropLast ++ [ls.getLast?.getD [] ++ S ";;"]

theorem join_ended : ∀ {ls : List Str}, ls ≠ [] → joinWith ['\n'] (ended ls) = joinWith ['\n'] ls ++ S ";;"
  | [], h => absurd rfl h
  | [x], _ => by simp [ended, joinWith]
  | x :: y :: r, _ => by
    have ih := join_ended (ls := y :: r) (by simp)
    have e : ended (x :: y :: r) = x :: ended (y :: r) := by simp [ended]
    have hne : ended (y :: r) ≠ [] := by simp [ended]
    obtain ⟨a, b, hab⟩ := List.exists_cons_of_ne_nil hne
    rw [e, hab, joinWith, ← hab, ih, joinWith]
    simp

def returnClauseLines (cl : List Str × Str) : List Str := (S "  " ++ makePattern cl.1 ++ S ")") :: (codeL cl.2 ++ [S "    return 0;;"])

def plainClauseLines (cl : List Str × Str) : List Str :=
  if cl.2.isEmpty then [S "  " ++ makePattern cl.1 ++ S ");;"] else (S "  " ++ makePattern cl.1 ++ S ")") :: ended (codeL cl.2)

theorem returnClause_text (cl : List Str × Str) : returnClauseText cl = joinWith ['\n'] (returnClauseLines cl) ++ ['\n'] := by
  unfold returnClauseText returnClauseLines
  by_cases h : cl.2 = []
  · simp [h, codeL, joinWith, S]
  · rw [if_neg (by simpa using h), indent_codeL h,
      show ((S "  " ++ makePattern cl.1 ++ S ")") :: (codeL cl.2 ++ [S "    return 0;;"])) = [S "  " ++ makePattern cl.1 ++ S ")"] ++ (codeL cl.2 ++ [S "    return 0;;"]) from rfl,
      joinWith_append _ _ _ (by simp) (by simp), joinWith_append _ _ _ (codeL_ne h) (by simp)]
    simp [joinWith, S]

theorem plainClause_text (cl : List Str × Str) : plainClauseText cl = joinWith ['\n'] (plainClauseLines cl) ++ ['\n'] := by
  unfold plainClauseText plainClauseLines
  by_cases h : cl.2 = []
  · simp [h, joinWith, S]
  · have hne : ended (codeL cl.2) ≠ [] := by simp [ended]
    rw [if_neg (by simpa using h), if_neg (by simpa using h), indent_codeL h,
      show ((S "  " ++ makePattern cl.1 ++ S ")") :: ended (codeL cl.2)) = [S "  " ++ makePattern cl.1 ++ S ")"] ++ ended (codeL cl.2) from rfl,
      joinWith_append _ _ _ (by simp) hne, join_ended (codeL_ne h)]
    simp [joinWith, S]

theorem flat_lines {α : Type} (f : α → Str) (g : α → List Str) (hf : ∀ x, f x = joinWith ['\n'] (g x) ++ ['\n']) (hg : ∀ x, g x ≠ []) (rest : List Str) (hr : rest ≠ []) :
    ∀ (l : List α), l.flatMap f ++ joinWith ['\n'] rest = joinWith ['\n'] (l.flatMap g ++ rest)
  | [] => rfl
  | x :: l => by
    have ih := flat_lines f g hf hg rest hr l
    rw [List.flatMap_cons, List.flatMap_cons, List.append_assoc, ih, List.append_assoc (g x), joinWith_append _ (g x) _ (hg x) (by simp [hr]), hf]

/-- The lines of a statement; `t` is the text of its condition. -/
def stmtLines (t : Str) : MStmt → List Str
  | .ifCase strings _ code => (S "case \"$opt\" in " ++ makePattern strings ++ S ")") :: (S "  if " ++ t ++ S "; then") ::
      (codeL code ++ [S "    return 0", S "  fi;;", S "esac"])
  | .cases cls => S "case \"$opt\" in" :: (cls.flatMap returnClauseLines ++ [S "esac"])
  | .mode => [S "[[ \"$mode\" == WITH_OPTIONAL ]] || return 1"]
  | .casesRet cls => S "case \"$opt\" in" :: (cls.flatMap plainClauseLines ++ [S "  *) ret=1;;", S "esac"])
  | .checkRet => [S "(( ! ret )) && return 0", S "[[ \"$mode\" == WITH_OPTIONAL ]] || return 1", S "ret=0"]

theorem stmtLines_ne (t : Str) (s : MStmt) : stmtLines t s ≠ [] := by cases s <;> simp [stmtLines]

/-- The condition of a statement. -/
def stmtCond : MStmt → Option Str
  | .ifCase _ c _ => some c
  | _ => none

theorem stmt_text {isRegex : Str → Bool} {pre : Str} {options : List Opt} {s : MStmt} {text : Str} (h : s.text isRegex pre options = .ok text) :
    ∃ t, text = joinWith ['\n'] (stmtLines t s) ∧ ∀ c, stmtCond s = some c → ∃ ts, parseWhen isRegex c = .ok ts ∧ bashWhenText pre (bashResolve options) ts = .ok t := by
  cases s with
  | ifCase strings cond code =>
    simp only [MStmt.text, bind, Except.bind] at h
    cases h1 : parseWhen isRegex cond with
    | error e => rw [h1] at h; cases h
    | ok ts =>
      rw [h1] at h
      simp only at h
      cases h2 : bashWhenText pre (bashResolve options) ts with
      | error e => rw [h2] at h; cases h
      | ok t =>
        rw [h2] at h
        simp only [Except.ok.injEq] at h
        refine ⟨t, ?_, ?_⟩
        · rw [← h, stmtLines]
          by_cases hc : code = []
          · simp [hc, codeL, joinWith, S]
          · rw [if_neg (by simpa using hc), indent_codeL hc,
              show ∀ a b (l : List Str), a :: b :: l = [a, b] ++ l from fun _ _ _ => rfl,
              joinWith_append _ _ _ (by simp) (by simp), joinWith_append _ _ _ (codeL_ne hc) (by simp)]
            simp [joinWith, S]
        · intro c hc
          simp only [stmtCond, Option.some.injEq] at hc
          subst hc
          exact ⟨ts, h1, h2⟩
  | cases cls =>
    simp only [MStmt.text, Except.ok.injEq] at h
    refine ⟨[], ?_, by simp [stmtCond]⟩
    rw [← h, stmtLines, show S "case \"$opt\" in" :: (cls.flatMap returnClauseLines ++ [S "esac"]) = [S "case \"$opt\" in"] ++ (cls.flatMap returnClauseLines ++ [S "esac"]) from rfl,
      joinWith_append _ _ _ (by simp) (by simp), ← flat_lines returnClauseText returnClauseLines returnClause_text (by simp [returnClauseLines]) _ (by simp)]
    simp [joinWith, S]
  | mode =>
    simp only [MStmt.text, Except.ok.injEq] at h
    exact ⟨[], by rw [← h]; rfl, by simp [stmtCond]⟩
  | casesRet cls =>
    simp only [MStmt.text, Except.ok.injEq] at h
    refine ⟨[], ?_, by simp [stmtCond]⟩
    rw [← h, stmtLines, show S "case \"$opt\" in" :: (cls.flatMap plainClauseLines ++ [S "  *) ret=1;;", S "esac"]) = [S "case \"$opt\" in"] ++ (cls.flatMap plainClauseLines ++ [S "  *) ret=1;;", S "esac"]) from rfl,
      joinWith_append _ _ _ (by simp) (by simp), ← flat_lines plainClauseText plainClauseLines plainClause_text (by intro x; unfold plainClauseLines; split <;> simp) _ (by simp)]
    simp [joinWith, S]
  | checkRet =>
    simp only [MStmt.text, Except.ok.injEq] at h
    exact ⟨[], by rw [← h]; simp [stmtLines, joinWith, S], by simp [stmtCond]⟩

/-! ## Grouping -/

/-- A line that belongs to the one in front of it. -/
def deep (n : Nat) (l : Str) : Prop := l = [] ∨ List.replicate (n + 1) ' ' <+: l

theorem group_deep {n : Nat} {c : List Str} {gs : List (Str × List Str)} {rest : List Str} (hr : group n rest = some (c, gs)) :
    ∀ (C : List Str), (∀ l ∈ C, deep n l) → group n (C ++ rest) = some (C ++ c, gs)
  | [], _ => hr
  | l :: C, h => by
    rw [List.cons_append, group, group_deep hr C (fun x hx => h x (by simp [hx])), Option.bind_some, if_pos (show l = [] ∨ _ from h l (by simp))]
    rfl

theorem prefix_succ {n : Nat} {x : Str} (h : x.head? ≠ some ' ') : ¬ List.replicate (n + 1) ' ' <+: List.replicate n ' ' ++ x := by
  rintro ⟨r, hr⟩
  rw [List.replicate_succ', List.append_assoc] at hr
  have := List.append_cancel_left hr
  rw [← this] at h
  exact h rfl

theorem group_head {n : Nat} {c : List Str} {gs : List (Str × List Str)} {rest : List Str} {x : Str} (hx : x ≠ []) (hh : x.head? ≠ some ' ')
    (hr : group n rest = some (c, gs)) : group n ((List.replicate n ' ' ++ x) :: rest) = some ([], (x, c) :: gs) := by
  rw [group, hr, Option.bind_some, if_neg, if_pos (List.prefix_append _ _)]
  · simp
  · rintro (h | h)
    · exact hx (List.append_eq_nil_iff.mp h).2
    · exact prefix_succ hh h

theorem deep_of {n k : Nat} (h : n < k) (x : Str) : deep n (List.replicate k ' ' ++ x) := by
  right
  refine ⟨List.replicate (k - (n + 1)) ' ' ++ x, ?_⟩
  rw [← List.append_assoc, List.replicate_append_replicate]
  congr 2
  omega

end ArmsLex
end CC
