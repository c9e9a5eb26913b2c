import Verif.Model.BashFunctionsText
import Verif.Props.BashFunctionText
import Verif.Props.BashCommandArgText
import Verif.Props.BashScript
/-!
# The completion functions of all commands in the Bash script (C107)
-/

namespace CC

open BashFunctions

theorem function_name_line {f : Str} (h : FunctionName f) : '\n' ∉ f := by
  intro hm
  have := List.all_eq_true.mp (BashText.isName_all h.1) _ hm
  exact absurd this (by decide)

namespace FunctionLex

theorem listing_infix (lines : Str → List Str) : ∀ (ps : List Str) (p : Str), p ∈ ps → lines p <:+: listing lines ps
  | [], _, h => absurd h (by simp)
  | [q], p, h => by
    rw [List.mem_singleton.mp h]; exact List.infix_refl _
  | q :: q' :: r, p, h => by
    rcases List.mem_cons.mp h with rfl | h
    · exact (List.prefix_append _ _).isInfix
    · have ih := listing_infix lines (q' :: r) p h
      exact ih.trans ((List.suffix_cons [] _).trans (List.suffix_append (lines q) _)).isInfix

theorem present_mem : ∀ (l : List (Option Str)) (p : Str), some p ∈ l → p ≠ [] → p ∈ present l
  | [], _, h, _ => absurd h (by simp)
  | none :: r, p, h, hp => by
    rw [present]
    exact present_mem r p (by simpa using h) hp
  | some q :: r, p, h, hp => by
    rw [present]
    rcases List.mem_cons.mp h with e | h
    · cases e
      rw [if_neg hp]; simp
    · have := present_mem r p h hp
      split
      · exact this
      · exact List.mem_cons_of_mem _ this

end FunctionLex

/-- **C107, for a command line** The functions found in the script are those of the commands that are worth one, in the order of the commands; and in the body of
each, the code that calls the functions of the subcommands and the code that hands over the line stand as they were written, two columns further to the right. -/
theorem C107_script (ctxt : BashCtxt) {pre : Str} (hpre : pre.head? = some '_') (root : Cmd) (code : List Cmd → Cmd → FunctionCode)
    (hcode : ∀ parents c, (code parents c).subcommandCall = callText pre parents c ∧ (code parents c).commandArg = commandArgText ctxt parents c)
    (hsome : ∀ e ∈ bashFunctions root, (code e.1 e.2).pieces ≠ []) :
    ∃ fs, functions none (splitOn '\n' (functionsText pre root code)) = some fs ∧
      fs.map (·.1) = (bashFunctions root).map (fun e => bashName pre e.1 e.2) ∧
      ∀ (i : Nat) (e : List Cmd × Cmd), (bashFunctions root)[i]? = some e → ∃ body, fs[i]? = some (bashName pre e.1 e.2, body) ∧
        ∀ text, callText pre e.1 e.2 = some text ∨ commandArgText ctxt e.1 e.2 = some text → (splitOn '\n' text).map (shifted pyIsSpace) <:+: body := by
  have hm : functionsText pre root code = joinWith (S "\n\n") (((bashFunctions root).map (fun e => (bashName pre e.1 e.2, code e.1 e.2))).map
      (fun f => completionFunction f.1 f.2)) := by
    unfold functionsText
    rw [List.map_map]; rfl
  have hp : ∀ f : FunctionCode, f.pieces = present [f.initCompletion, f.commandLineParsing, f.subcommandCall, f.commandArg, f.optionCompletion, f.optionStrings,
      f.positionalCompletion] := fun f => by rw [FunctionCode.pieces, FunctionLex.present_filter]
  have main := C107_functions ((bashFunctions root).map (fun e => (bashName pre e.1 e.2, code e.1 e.2))) FunctionCode.pieces (by
    intro f hf
    obtain ⟨e, he, rfl⟩ := List.mem_map.mp hf
    exact ⟨function_name_line (bashName_function hpre _ _), hsome e he⟩) hp
  rw [← hm] at main
  refine ⟨_, main, ?_, ?_⟩
  · simp [List.map_map, Function.comp_def]
  · intro i e he
    refine ⟨_, by rw [List.getElem?_map, List.getElem?_map, he]; rfl, ?_⟩
    intro text ht
    have hne : text ≠ [] := by
      rcases ht with ht | ht
      · unfold callText at ht
        cases hs : e.2.sub with
        | none => rw [hs] at ht; cases ht
        | some n => rw [hs] at ht; cases ht; simp [S]
      · unfold commandArgText at ht
        cases hs : e.2.data.positionals.find? Pos.isCommandArg with
        | none => rw [hs] at ht; cases ht
        | some n => rw [hs] at ht; cases ht; exact fun h => by simp only [handOverText, List.append_eq_nil_iff] at h; exact absurd h.2 (by decide)
    have hmem : text ∈ (code e.1 e.2).pieces := by
      rw [hp]
      refine FunctionLex.present_mem _ _ ?_ hne
      obtain ⟨h1, h2⟩ := hcode e.1 e.2
      rcases ht with ht | ht
      · rw [h1, ht]; simp
      · rw [h2, ht]; simp
    exact ((FunctionLex.listing_infix _ _ _ hmem).map _).trans (List.prefix_append _ _).isInfix

/-- The script of a program with two levels of subcommands: three functions, and the pieces are there. -/
theorem C107_script_example : ∃ fs, functions none (splitOn '\n' (functionsText (S "_p") nestedRoot (fun parents c =>
      ⟨none, none, callText (S "_p") parents c, commandArgText ⟨[], [], true⟩ parents c, none, some (S ":"), none⟩))) = some fs ∧
    fs.map (·.1) = [S "_p", S "_p_a", S "_p_a_b"] := by
  obtain ⟨fs, h1, h2, -⟩ := C107_script ⟨[], [], true⟩ (pre := S "_p") rfl nestedRoot (fun parents c =>
      ⟨none, none, callText (S "_p") parents c, commandArgText ⟨[], [], true⟩ parents c, none, some (S ":"), none⟩) (fun _ _ => ⟨rfl, rfl⟩) (by
    intro e _ h
    have : S ":" ∈ ([] : List Str) := by
      rw [← h, FunctionCode.pieces]
      simp [S]
    cases this)
  exact ⟨fs, h1, by rw [h2, C98_example.1]⟩

end CC
