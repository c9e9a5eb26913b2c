import Verif.Spec.BashHandOver
import Verif.Model.BashCommandArgText
import Verif.Lemmas.BashCalls
import Verif.Props.BashCommandArg
/-!
# The text of the code that hands the line over to another command (C106)
-/

namespace CC

open BashText BashHandOver BashCalls

namespace HandOverLex

theorem natInt (n : Nat) : intStr (n : Int) = natStr n := by
  unfold intStr
  rw [if_neg (by omega)]
  simp

theorem read_count (n : Nat) : readAtLeast (S "if (( ${#POSITIONALS[@]} >= " ++ natStr n ++ S " )); then") = some (S "POSITIONALS", n) := by
  have h1 : S "if (( ${#POSITIONALS[@]} >= " ++ natStr n ++ S " )); then" =
      "if (( ${#".toList ++ ((S "POSITIONALS[@]} >= " ++ natStr n) ++ " )); then".toList) := by simp [S]
  have h2 : spanName (S "POSITIONALS[@]} >= " ++ natStr n) = some (S "POSITIONALS", S "[@]} >= " ++ natStr n) := by rfl
  have h3 : without "[@]} >= ".toList (S "[@]} >= " ++ natStr n) = some (natStr n) := by rfl
  unfold readAtLeast
  rw [h1, between_both, Option.bind_some, h2, Option.bind_some]
  simp only
  rw [h3, Option.bind_some, digits_natStr]; rfl

theorem read_place (n : Nat) (h : 1 ≤ n) : readPlace (intStr ((n : Int) - 2)) = some (if 2 ≤ n then some (n - 2) else none) := by
  by_cases h2 : 2 ≤ n
  · have e : ((n : Int) - 2) = ((n - 2 : Nat) : Int) := by omega
    rw [e, natInt, if_pos h2]
    unfold readPlace
    rw [if_neg, digits_natStr]
    · rfl
    · intro h
      have : '-' ∈ natStr (n - 2) := by rw [h]; decide
      have := natStr_isDigit this
      revert this; decide
  · have : n = 1 := by omega
    subst this
    decide +kernel

theorem read_test (k : Str) : readTest (S "[[ \"${COMP_WORDS[realpos]}\" == \"${POSITIONALS[" ++ k ++ S "]}\" ]] && {") =
    (readPlace k).map (fun k => ((S "COMP_WORDS", S "realpos"), S "POSITIONALS", k)) := by
  have h1 : S "[[ \"${COMP_WORDS[realpos]}\" == \"${POSITIONALS[" ++ k ++ S "]}\" ]] && {" =
      "[[ \"${".toList ++ ((S "COMP_WORDS[realpos]}\" == \"${POSITIONALS[" ++ k) ++ "]}\" ]] && {".toList) := by simp [S]
  unfold readTest
  rw [h1, between_both, Option.bind_some]
  rfl

theorem offset_cases (ctxt : BashCtxt) : commandOffset ctxt = S "_comp_command_offset" ∨ commandOffset ctxt = S "_command_offset" := by
  unfold commandOffset versioned
  split <;> simp

theorem first_idx (w : Str) (l : List Str) : ∀ i, first w i l = (l.findIdx? (fun x => x == w)).map (· + i) := by
  induction l with
  | nil => intro i; rfl
  | cons x r ih =>
    intro i
    rw [first, List.findIdx?_cons]
    by_cases h : x = w
    · subst h; simp
    · rw [if_neg h, ih, show (x == w) = false by simpa using h]
      simp only [Bool.false_eq_true, if_false, Option.map_map]
      congr 1
      funext j
      simp only [Function.comp_apply]; omega

theorem text_lines (offset : Str) (n : Nat) : handOverText offset n = joinWith ['\n'] [S "if (( ${#POSITIONALS[@]} >= " ++ natStr n ++ S " )); then", S "  local realpos",
      S "  for realpos in \"${!COMP_WORDS[@]}\"; do", S "    [[ \"${COMP_WORDS[realpos]}\" == \"${POSITIONALS[" ++ intStr ((n : Int) - 2) ++ S "]}\" ]] && {",
      S "      " ++ offset ++ S " $realpos", S "      return 0;", S "    }", S "  done", S "fi"] := by
  have e1 : S " )); then\n" = S " )); then" ++ ['\n'] := rfl
  have e2 : S "  local realpos\n" = S "  local realpos" ++ ['\n'] := rfl
  have e3 : S "  for realpos in \"${!COMP_WORDS[@]}\"; do\n" = S "  for realpos in \"${!COMP_WORDS[@]}\"; do" ++ ['\n'] := rfl
  have e4 : S "]}\" ]] && {\n" = S "]}\" ]] && {" ++ ['\n'] := rfl
  have e5 : S " $realpos\n" = S " $realpos" ++ ['\n'] := rfl
  have e6 : S "      return 0;\n" = S "      return 0;" ++ ['\n'] := rfl
  have e7 : S "    }\n" = S "    }" ++ ['\n'] := rfl
  have e8 : S "  done\n" = S "  done" ++ ['\n'] := rfl
  unfold handOverText
  rw [natInt, e1, e2, e3, e4, e5, e6, e7, e8]
  simp only [joinWith, List.append_assoc]

/-- The text is read as it was meant. -/
theorem read_text (offset : Str) (ho : offset = S "_comp_command_offset" ∨ offset = S "_command_offset") (n : Nat) (h : 1 ≤ n) :
    BashHandOver.read (handOverText offset n) = some ⟨S "POSITIONALS", n, S "COMP_WORDS", S "POSITIONALS", if 2 ≤ n then some (n - 2) else none, offset⟩ := by
  have hk : '\n' ∉ intStr ((n : Int) - 2) := by
    unfold intStr
    split
    · intro hm
      rcases List.mem_cons.mp hm with h | h
      · exact absurd h (by decide)
      · exact number_no_break _ h
    · exact number_no_break _
  have hoff : '\n' ∉ offset := by rcases ho with rfl | rfl <;> decide
  have hsplit : splitOn '\n' (handOverText offset n) = [S "if (( ${#POSITIONALS[@]} >= " ++ natStr n ++ S " )); then", S "  local realpos",
      S "  for realpos in \"${!COMP_WORDS[@]}\"; do", S "    [[ \"${COMP_WORDS[realpos]}\" == \"${POSITIONALS[" ++ intStr ((n : Int) - 2) ++ S "]}\" ]] && {",
      S "      " ++ offset ++ S " $realpos", S "      return 0;", S "    }", S "  done", S "fi"] := by
    have h1 : '\n' ∉ S "if (( ${#POSITIONALS[@]} >= " ++ natStr n ++ S " )); then" := by
      simp only [List.mem_append, not_or]
      exact ⟨⟨by decide, number_no_break n⟩, by decide⟩
    have h2 : '\n' ∉ S "    [[ \"${COMP_WORDS[realpos]}\" == \"${POSITIONALS[" ++ intStr ((n : Int) - 2) ++ S "]}\" ]] && {" := by
      simp only [List.mem_append, not_or]
      exact ⟨⟨by decide, hk⟩, by decide⟩
    have h3 : '\n' ∉ S "      " ++ offset ++ S " $realpos" := by
      simp only [List.mem_append, not_or]
      exact ⟨⟨by decide, hoff⟩, by decide⟩
    rw [text_lines, splitOn_join '\n' _ (by simp) (fun w hw => ?_)]
    simp only [List.mem_cons, List.not_mem_nil, or_false] at hw
    rcases hw with h | h | h | h | h | h | h | h | h <;> rw [h]
    · exact h1
    · decide
    · decide
    · exact h2
    · exact h3
    all_goals decide
  unfold BashHandOver.read
  rw [hsplit]
  have hcall : readCall (offset ++ S " $realpos") = some (offset, S "realpos") := by rcases ho with rfl | rfl <;> decide +kernel
  have htest := (read_test (intStr ((n : Int) - 2))).trans (by rw [read_place n h])
  have d1 : (S "if (( ${#POSITIONALS[@]} >= " ++ natStr n ++ S " )); then").dropWhile (· == ' ') = S "if (( ${#POSITIONALS[@]} >= " ++ natStr n ++ S " )); then" := by rfl
  have d2 : (S "    [[ \"${COMP_WORDS[realpos]}\" == \"${POSITIONALS[" ++ intStr ((n : Int) - 2) ++ S "]}\" ]] && {").dropWhile (· == ' ') =
      S "[[ \"${COMP_WORDS[realpos]}\" == \"${POSITIONALS[" ++ intStr ((n : Int) - 2) ++ S "]}\" ]] && {" := by rfl
  have d3 : (S "      " ++ offset ++ S " $realpos").dropWhile (· == ' ') = offset ++ S " $realpos" := by rcases ho with rfl | rfl <;> decide +kernel
  simp only [List.map_cons, List.map_nil, d1, d2, d3]
  refine (if_pos (by decide +kernel)).trans ?_
  rw [read_count, Option.bind_some]
  have hl : without "local ".toList ((S "  local realpos").dropWhile (· == ' ')) = some (S "realpos") := by decide +kernel
  have hf : readFor ((S "  for realpos in \"${!COMP_WORDS[@]}\"; do").dropWhile (· == ' ')) = some (S "realpos", S "COMP_WORDS") := by decide +kernel
  rw [hl, Option.bind_some, hf, Option.bind_some, htest, Option.map_some, Option.bind_some, hcall, Option.bind_some]
  rfl

end HandOverLex

/-- **C106, the text** If the command has a positional that is the arguments of a command, then the text written for it can be read, and running it is as in the
model of the function: it calls `command_offset` with the place that the model says. If not, nothing is written and the model does nothing. -/
theorem C106_text (ctxt : BashCtxt) (parents : List Cmd) (c : Cmd) (arrays : Str → List Str) (ln : BLine) (hp : ln.positionals = arrays (S "POSITIONALS"))
    (hw : ln.compWords = arrays (S "COMP_WORDS")) :
    (commandArgText ctxt parents c = none → runCommandArg ln parents c = none) ∧
    ∀ text, commandArgText ctxt parents c = some text → ∃ l, BashHandOver.read text = some l ∧ BashHandOver.run arrays l = (runCommandArg ln parents c).map (fun i => (commandOffset ctxt, i)) := by
  unfold commandArgText runCommandArg
  cases hf : c.data.positionals.find? Pos.isCommandArg with
  | none => exact ⟨fun _ => rfl, (fun text h => by cases h)⟩
  | some p =>
    refine ⟨(fun h => by cases h), ?_⟩
    intro text h
    simp only [Option.map_some, Option.some.injEq] at h
    subst h
    have hnum : 1 ≤ positionalNum parents p.number := by simp only [positionalNum]; omega
    refine ⟨_, HandOverLex.read_text _ (HandOverLex.offset_cases ctxt) _ hnum, ?_⟩
    unfold BashHandOver.run
    simp only [hp, hw]
    by_cases h1 : positionalNum parents p.number ≤ (arrays (S "POSITIONALS")).length
    · rw [if_pos h1, if_pos h1, HandOverLex.first_idx]
      by_cases h2 : 2 ≤ positionalNum parents p.number
      · simp [h2, List.getD_eq_getElem?_getD]
      · simp [h2]
    · rw [if_neg h1, if_neg h1]; rfl

/-- The text for `sudo`, read and run: the words of the line are `sudo ls /tmp`, and the completions of `ls` are asked for from place 1. -/
theorem C106_text_example : ∃ text l, commandArgText ⟨[], [], true⟩ [] sudoTree = some text ∧ BashHandOver.read text = some l ∧
    BashHandOver.run (fun a => if a = S "COMP_WORDS" then [S "sudo", S "ls", S "/tmp"] else [S "ls", S "/tmp"]) l = some (S "_comp_command_offset", 1) := by
  exact ⟨_, _, rfl, HandOverLex.read_text _ (HandOverLex.offset_cases _) 2 (by decide), by decide +kernel⟩

end CC
