import Verif.Lemmas.BashArmsRun
import Verif.Lemmas.BashWrapping
/-!
# Lemmas: reading the whole text of `__complete_option`
-/

namespace CC

open BashText (isName)

namespace ArmsLex
open BashArms

/-! ## The lines of the function -/

/-- Lines with empty lines between them. -/
def glue : List (List Str) → List Str
  | [] => []
  | [L] => L
  | L :: M :: r => L ++ [] :: glue (M :: r)

theorem glue_ne : ∀ {Ls : List (List Str)}, Ls ≠ [] → (∀ L ∈ Ls, L ≠ []) → glue Ls ≠ []
  | [], h, _ => absurd rfl h
  | [L], _, h => h L (by simp)
  | L :: M :: r, _, h => by simp [glue]

theorem join_glue : ∀ (Ls : List (List Str)), (∀ L ∈ Ls, L ≠ []) → joinWith (S "\n\n") (Ls.map (joinWith ['\n'])) = joinWith ['\n'] (glue Ls)
  | [], _ => rfl
  | [L], _ => rfl
  | L :: M :: r, h => by
    have ih := join_glue (M :: r) (fun x hx => h x (by simp [hx]))
    have hne := glue_ne (Ls := M :: r) (by simp) (fun x hx => h x (by simp [hx]))
    rw [glue, BlocksLex.joinWith_append _ _ _ (h L (by simp)) (by simp), show ([] : Str) :: glue (M :: r) = [[]] ++ glue (M :: r) from rfl, BlocksLex.joinWith_append _ _ _ (by simp) hne, ← ih]
    simp [joinWith, S]

theorem glue_map : ∀ (Ls : List (List Str)), (glue Ls).map (ind 2) = glue (Ls.map (fun L => L.map (ind 2)))
  | [] => rfl
  | [L] => rfl
  | L :: M :: r => by
    have ih := glue_map (M :: r)
    rw [glue, List.map_append, List.map_cons, ih, ind_nil]
    rfl

theorem glue_mem : ∀ {Ls : List (List Str)} {l : Str}, l ∈ glue Ls → l = [] ∨ ∃ L ∈ Ls, l ∈ L
  | [], l, h => by cases h
  | [L], l, h => .inr ⟨L, by simp, h⟩
  | L :: M :: r, l, h => by
    rw [glue] at h
    rcases List.mem_append.mp h with h | h
    · exact .inr ⟨L, by simp, h⟩
    · rcases List.mem_cons.mp h with h | h
      · exact .inl h
      · rcases glue_mem h with h | ⟨K, hK, h⟩
        · exact .inl h
        · exact .inr ⟨K, by simp [hK], h⟩

/-- Reading lines with empty lines between them. -/
theorem reads_glue {last : List Str} {gs : List (Str × List Str)} (hl : group 2 last = some ([], gs)) : ∀ (Ls : List (List Str × List Stmt)), Ls ≠ [] →
    (∀ x ∈ Ls, ReadsAs x.1 x.2) →
    ∃ gs', group 2 (glue (Ls.map (·.1)) ++ [] :: last) = some ([], gs') ∧ readStmts gs' = (readStmts gs).map (fun y => Ls.flatMap (·.2) ++ y)
  | [], h, _ => absurd rfl h
  | [x], _, h => by
    obtain ⟨gs', h1, h2⟩ := h x (by simp) last gs hl
    exact ⟨gs', h1, by rw [h2]; simp⟩
  | x :: y :: r, _, h => by
    obtain ⟨gs1, h1, h2⟩ := reads_glue hl (y :: r) (by simp) (fun z hz => h z (by simp [hz]))
    obtain ⟨gs', h3, h4⟩ := h x (by simp) _ gs1 h1
    refine ⟨gs', ?_, ?_⟩
    · rw [← h3]
      simp [glue]
    · rw [h4, h2, Option.map_map]
      congr 1
      funext z
      simp

/-- The local variables. -/
def localsOf (hasWhen optionals : Bool) : List (Str × Value) :=
  [(S "opt", .arg 1), (S "cur", .arg 2)] ++ (if optionals then [(S "mode", .arg 3)] else []) ++ (if hasWhen then [] else [(S "ret", .lit (S "0"))])

theorem locals_read (hasWhen optionals : Bool) : ∃ l, masterLocals hasWhen optionals = List.replicate 2 ' ' ++ l ∧ l ≠ [] ∧ l.head? ≠ some ' ' ∧
    BashText.without "case \"$opt\" in".toList l = none ∧ BashArms.readSimple l = some (.locals (localsOf hasWhen optionals)) ∧ '\n' ∉ masterLocals hasWhen optionals := by
  refine ⟨(masterLocals hasWhen optionals).drop 2, ?_⟩
  cases hasWhen <;> cases optionals <;> exact ⟨by decide +kernel, by decide +kernel, by decide +kernel, by decide +kernel, by rfl, by decide +kernel⟩

/-- The last line. -/
def lastLine (hasWhen : Bool) : Str := if hasWhen then S "  return 1" else S "  return $ret"

theorem function_lines (f : Str) (hasWhen optionals : Bool) {Ls : List (List Str)} (hne : Ls ≠ []) (hL : ∀ L ∈ Ls, L ≠ [] ∧ ∀ l ∈ L, '\n' ∉ l) :
    f ++ S "() {\n" ++ masterLocals hasWhen optionals ++ S "\n\n" ++ indent (joinWith (S "\n\n") (Ls.map (joinWith ['\n']))) 2 ++ S "\n\n" ++
      (if hasWhen then S "  return 1\n" else S "  return $ret\n") ++ S "}" =
      joinWith ['\n'] ((f ++ S "() {") :: masterLocals hasWhen optionals :: [] :: (glue (Ls.map (fun L => L.map (ind 2))) ++ [[], lastLine hasWhen, S "}"])) := by
  have hg := glue_ne hne (fun L h => (hL L h).1)
  have hn : ∀ l ∈ glue Ls, '\n' ∉ l := by
    intro l hl
    rcases glue_mem hl with rfl | ⟨L, h1, h2⟩
    · simp
    · exact (hL L h1).2 l h2
  rw [join_glue _ (fun L h => (hL L h).1), indent_joined 2 hg hn, glue_map,
    show ∀ (a b c : Str) (r : List Str), a :: b :: c :: r = [a, b, c] ++ r from fun _ _ _ _ => rfl,
    BlocksLex.joinWith_append _ _ _ (by simp) (by simp), BlocksLex.joinWith_append _ _ _ (by rw [← glue_map]; simpa using hg) (by simp)]
  cases hasWhen <;> simp [joinWith, S, lastLine]

/-- The function is read. -/
theorem read_function {f : Str} (hf : isName f = true) (hasWhen optionals : Bool) {Ls : List (List Str × List Stmt)} (hne : Ls ≠ [])
    (hnl : ∀ x ∈ Ls, ∀ l ∈ x.1, '\n' ∉ l) (hr : ∀ x ∈ Ls, ReadsAs x.1 x.2) :
    BashArms.read (joinWith ['\n'] ((f ++ S "() {") :: masterLocals hasWhen optionals :: [] :: (glue (Ls.map (·.1)) ++ [[], lastLine hasWhen, S "}"]))) =
      some (f, .locals (localsOf hasWhen optionals) :: (Ls.flatMap (·.2) ++ [if hasWhen then .fail else .ret])) := by
  obtain ⟨loc, l1, l2, l3, l4, l5, l6⟩ := locals_read hasWhen optionals
  have hlines : splitOn '\n' (joinWith ['\n'] ((f ++ S "() {") :: masterLocals hasWhen optionals :: [] :: (glue (Ls.map (·.1)) ++ [[], lastLine hasWhen, S "}"]))) =
      (f ++ S "() {") :: masterLocals hasWhen optionals :: [] :: (glue (Ls.map (·.1)) ++ [[], lastLine hasWhen, S "}"]) := by
    rw [splitOn_join _ _ (by simp)]
    intro l hl
    simp only [List.mem_cons, List.mem_append, List.not_mem_nil, or_false] at hl
    rcases hl with rfl | rfl | rfl | hl | rfl | rfl | rfl
    · simp only [List.mem_append, not_or]
      exact ⟨BashText.no_break_name hf, by decide +kernel⟩
    · exact l6
    · simp
    · rcases glue_mem hl with rfl | ⟨L, h1, h2⟩
      · simp
      · obtain ⟨x, hx, rfl⟩ := List.mem_map.mp h1
        exact hnl x hx l h2
    · simp
    · cases hasWhen <;> decide +kernel
    · decide +kernel
  obtain ⟨ll, s, -, e3, e4, e5⟩ : ∃ ll s, lastLine hasWhen = List.replicate 2 ' ' ++ ll ∧ group 2 [lastLine hasWhen] = some ([], [(ll, [])]) ∧
      readStmts [(ll, [])] = some [s] ∧ s = (if hasWhen then Stmt.fail else .ret) := by
    cases hasWhen
    · exact ⟨S "return $ret", .ret, rfl, by decide +kernel, by rfl, rfl⟩
    · exact ⟨S "return 1", .fail, rfl, by decide +kernel, by rfl, rfl⟩
  obtain ⟨gs', g1, g2⟩ := reads_glue e3 Ls hne hr
  have g3 := group_head l2 l3 (group_empty g1)
  unfold BashArms.read
  rw [hlines]
  simp only
  have hlast : (masterLocals hasWhen optionals :: [] :: (glue (Ls.map (·.1)) ++ [[], lastLine hasWhen, S "}"])) =
      (masterLocals hasWhen optionals :: [] :: (glue (Ls.map (·.1)) ++ [[], lastLine hasWhen])) ++ [S "}"] := by simp
  rw [hlast, List.getLast?_concat, if_pos (by rfl), show f ++ S "() {" = f ++ "() {".toList from rfl, BashWrap.between_suffix, Option.bind_some, if_pos hf, List.dropLast_concat]
  unfold groups
  rw [l1, show glue (Ls.map (·.1)) ++ [[], lastLine hasWhen] = glue (Ls.map (·.1)) ++ [] :: [lastLine hasWhen] from rfl, g3]
  simp only [Option.bind_some, if_true]
  rw [stmts_simple rfl l4 l5, g2, e4, ← e5]
  rfl

end ArmsLex
end CC
