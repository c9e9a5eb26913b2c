import Verif.Spec.BashFunctionLines
import Verif.Spec.Posix
import Verif.Model.BashFunctionText
import Verif.Lemmas.BashBlocksText
/-!
# The completion functions in the Bash script, line by line (C107)
-/

namespace CC

open BashFunctions

namespace FunctionLex

theorem shifted_indent (l : Str) : (if stripTruthy l then List.replicate 2 ' ' ++ l else l) = shifted pyIsSpace l := by
  unfold shifted
  by_cases h : stripTruthy l = true
  · rw [if_pos h, if_neg]
    · rfl
    · obtain ⟨c, hc, hs⟩ := (stripTruthy_iff l).mp h
      intro ha
      have := List.all_eq_true.mp ha c hc
      rw [hs] at this; cases this
  · rw [if_neg h, if_pos]
    rw [List.all_eq_true]
    intro c hc
    cases hs : pyIsSpace c with
    | true => rfl
    | false => exact absurd ((stripTruthy_iff l).mpr ⟨c, hc, hs⟩) h

theorem lines_pieces : ∀ ps : List Str, ps ≠ [] → splitOn '\n' (joinWith (S "\n\n") ps) = listing (splitOn '\n') ps
  | [], h => absurd rfl h
  | [p], _ => rfl
  | p :: q :: r, _ => by
    have ih := lines_pieces (q :: r) (by simp)
    have h : joinWith (S "\n\n") (p :: q :: r) = joinWith ['\n'] (splitOn '\n' p) ++ '\n' :: '\n' :: joinWith (S "\n\n") (q :: r) := by
      rw [join_splitOn, joinWith]; simp [S]
    rw [h, BlocksLex.split_join_append _ (splitOn_ne_nil '\n' p) (splitOn_no_sep '\n' p), splitOn_cons_nl, ih]
    rfl

/-- The lines of the body. -/
def bodyOf (ps : List Str) : List Str := (listing (splitOn '\n') ps).map (shifted pyIsSpace) ++ [[], S "  return 1"]

theorem body_lines (ps : List Str) (h : ps ≠ []) : splitOn '\n' (indent (joinWith (S "\n\n") ps) 2) = (listing (splitOn '\n') ps).map (shifted pyIsSpace) := by
  rw [BlocksLex.indent_lines, lines_pieces ps h]
  exact List.map_congr_left (fun l _ => shifted_indent l)

theorem function_lines (name : Str) (f : FunctionCode) (hf : f.pieces ≠ []) :
    completionFunction name f = joinWith ['\n'] ((name ++ S "() {") :: (bodyOf f.pieces ++ [S "}"])) := by
  have e1 : S "() {\n" = S "() {" ++ ['\n'] := rfl
  have e2 : S "\n\n" = ['\n'] ++ ['\n'] := rfl
  have e3 : S "  return 1\n" = S "  return 1" ++ ['\n'] := rfl
  have hne : (listing (splitOn '\n') f.pieces).map (shifted pyIsSpace) ≠ [] := by
    rw [← body_lines _ hf]; exact splitOn_ne_nil '\n' _
  have hb : joinWith ['\n'] ((listing (splitOn '\n') f.pieces).map (shifted pyIsSpace)) = indent (joinWith (S "\n\n") f.pieces) 2 := by
    rw [← body_lines _ hf, join_splitOn]
  rw [show (name ++ S "() {") :: (bodyOf f.pieces ++ [S "}"]) =
    [name ++ S "() {"] ++ ((listing (splitOn '\n') f.pieces).map (shifted pyIsSpace) ++ [[], S "  return 1", S "}"]) by simp [bodyOf],
    BlocksLex.joinWith_append _ _ _ (by simp) (by simp), BlocksLex.joinWith_append _ _ _ hne (by simp), hb]
  unfold completionFunction
  generalize indent (joinWith (S "\n\n") f.pieces) 2 = t
  rw [e1, e2, e3]
  simp only [joinWith, List.append_assoc, List.nil_append]

theorem body_nl (ps : List Str) (h : ps ≠ []) : ∀ l ∈ bodyOf ps, '\n' ∉ l := by
  intro l hl
  unfold bodyOf at hl
  rw [← body_lines ps h] at hl
  rcases List.mem_append.mp hl with hl | hl
  · exact splitOn_no_sep '\n' _ l hl
  · simp only [List.mem_cons, List.not_mem_nil, or_false] at hl
    rcases hl with rfl | rfl <;> decide

theorem body_open (ps : List Str) : ∀ l ∈ bodyOf ps, l ≠ "}".toList := by
  intro l hl
  rcases List.mem_append.mp hl with hl | hl
  · obtain ⟨x, -, rfl⟩ := List.mem_map.mp hl
    unfold shifted
    split
    · rintro rfl; rename_i hb; revert hb; decide
    · intro h; cases h
  · simp only [List.mem_cons, List.not_mem_nil, or_false] at hl
    rcases hl with rfl | rfl <;> decide

theorem functions_body (r : List Str) : ∀ (L : List Str) (n : Str) (acc : List Str), (∀ l ∈ L, l ≠ "}".toList) →
    functions (some (n, acc)) (L ++ S "}" :: r) = (functions none r).map ((n, acc ++ L) :: ·)
  | [], n, acc, _ => by
    rw [List.nil_append, functions, if_pos (show S "}" = "}".toList from rfl), List.append_nil]
  | l :: L, n, acc, h => by
    rw [List.cons_append, functions, if_neg (h l (by simp)), functions_body r L n (acc ++ [l]) (fun x hx => h x (by simp [hx]))]
    simp

theorem header_name (n : Str) : header (n ++ S "() {") = some n := by
  unfold header
  rw [if_pos (show "() {".toList <:+ n ++ S "() {" from List.suffix_append n _)]
  simp [S]

theorem functions_one (n : Str) (ps : List Str) (r : List Str) :
    functions none ((n ++ S "() {") :: (bodyOf ps ++ S "}" :: r)) = (functions none r).map ((n, bodyOf ps) :: ·) := by
  rw [functions, if_neg (by simp [S]), header_name, Option.bind_some, functions_body _ _ _ _ (body_open ps), List.nil_append]

theorem present_filter : ∀ l : List (Option Str), (l.filterMap id).filter (fun c => !c.isEmpty) = present l
  | [] => rfl
  | none :: r => by rw [present, ← present_filter r]; rfl
  | some p :: r => by
    rw [present, ← present_filter r]
    cases p <;> simp

end FunctionLex

open FunctionLex in
/-- **C107** The functions of the script, joined by empty lines, are found as they were written, whatever their pieces of code are: the name, then the lines of the
pieces in their order, two columns further to the right, with an empty line between two pieces, then an empty line and `return 1`. -/
theorem C107_functions (fs : List (Str × FunctionCode)) (code : FunctionCode → List Str) (h : ∀ f ∈ fs, '\n' ∉ f.1 ∧ code f.2 ≠ [])
    (hcode : ∀ f, code f = present [f.initCompletion, f.commandLineParsing, f.subcommandCall, f.commandArg, f.optionCompletion, f.optionStrings, f.positionalCompletion]) :
    functions none (splitOn '\n' (joinWith (S "\n\n") (fs.map (fun f => completionFunction f.1 f.2)))) =
      some (fs.map (fun f => (f.1, (listing (splitOn '\n') (code f.2)).map (shifted pyIsSpace) ++ [[], S "  return 1"]))) := by
  have hc : code = FunctionCode.pieces := by
    funext f
    rw [hcode, FunctionCode.pieces, present_filter]
  rw [hc] at h ⊢
  clear hcode hc
  induction fs with
  | nil => rfl
  | cons f r ih =>
    obtain ⟨h1, h2⟩ := h f (by simp)
    have ih := ih (fun x hx => h x (by simp [hx]))
    have hnl : ∀ l ∈ (f.1 ++ S "() {") :: (bodyOf f.2.pieces ++ [S "}"]), '\n' ∉ l := by
      intro l hl
      rcases List.mem_cons.mp hl with rfl | hl
      · simp only [List.mem_append, not_or]; exact ⟨h1, by decide⟩
      · rcases List.mem_append.mp hl with hl | hl
        · exact body_nl _ h2 l hl
        · rw [List.mem_singleton.mp hl]; decide
    cases r with
    | nil =>
      simp only [List.map_cons, List.map_nil, joinWith]
      rw [function_lines f.1 f.2 h2, splitOn_join _ _ (by simp) hnl, functions_one]
      rfl
    | cons g r =>
      have e : joinWith (S "\n\n") ((f :: g :: r).map (fun f => completionFunction f.1 f.2)) =
          joinWith ['\n'] ((f.1 ++ S "() {") :: (bodyOf f.2.pieces ++ [S "}"])) ++ '\n' :: '\n' ::
            joinWith (S "\n\n") ((g :: r).map (fun f => completionFunction f.1 f.2)) := by
        rw [← function_lines f.1 f.2 h2]
        simp [joinWith, S]
      rw [e, BlocksLex.split_join_append _ (by simp) hnl, splitOn_cons_nl, List.cons_append, List.append_assoc, List.singleton_append, functions_one, functions,
        if_pos rfl, ih]
      rfl

/-- Two functions; the first one has two pieces, and the line of a piece that is only a closing brace does not end it. -/
theorem C107_functions_example :
    functions none (splitOn '\n' (joinWith (S "\n\n") [completionFunction (S "_p") ⟨some (S "local cur"), none, none, none, none, some (S "f() {\n:\n}"), none⟩,
      completionFunction (S "_p_a") ⟨none, none, none, none, some [], none, some (S "g")⟩])) =
    some [(S "_p", [S "  local cur", [], S "  f() {", S "  :", S "  }", [], S "  return 1"]), (S "_p_a", [S "  g", [], S "  return 1"])] := by
  decide +kernel

/-- **C107** The words are not always kept: a line break in quotes becomes a line break and two blanks. -/
theorem C107_quoted_break :
    Posix.read .gap [] (quote (S "a\nb")) = some [S "a\nb"] ∧
    functions none (splitOn '\n' (completionFunction (S "_p") ⟨some (S "echo " ++ quote (S "a\nb")), none, none, none, none, none, none⟩)) =
      some [(S "_p", [S "  echo 'a", S "  b'", [], S "  return 1"])] ∧
    Posix.read .gap [] (S "  echo 'a\n  b'") = some [S "echo", S "a\n  b"] := by
  decide +kernel

end CC
