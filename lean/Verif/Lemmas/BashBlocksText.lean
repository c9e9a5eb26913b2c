import Verif.Spec.BashBlocks
import Verif.Model.BashPositionalText
import Verif.Lemmas.BashWrapping
import Verif.Props.StrUtils
/-!
# Lemmas: the lines of blocks that end with `return 0;`
-/

namespace CC
namespace BlocksLex
open BashBlocks

/-- The lines of code in a block. -/
def codeLines (code : Str) : List Str := if code.isEmpty then [] else splitOn '\n' (indent code 2)

theorem indent_lines (code : Str) : splitOn '\n' (indent code 2) =
    (splitOn '\n' code).map (fun line => if stripTruthy line then List.replicate 2 ' ' ++ line else line) := by
  unfold indent
  rw [splitOn_join]
  · intro h
    exact splitOn_ne_nil '\n' code (List.map_eq_nil_iff.mp h)
  · intro w hw
    obtain ⟨l, hl, rfl⟩ := List.mem_map.mp hw
    have := splitOn_no_sep '\n' code l hl
    split
    · simp only [List.mem_append, not_or]
      exact ⟨by simp, this⟩
    · exact this

theorem codeLines_close (code : Str) : ∀ l ∈ codeLines code, l ≠ "}".toList := by
  intro l hl
  unfold codeLines at hl
  split at hl
  · cases hl
  · rw [indent_lines] at hl
    obtain ⟨x, -, rfl⟩ := List.mem_map.mp hl
    split
    · intro h
      have := congrArg List.head? h
      simp [List.replicate_succ] at this
    · rename_i hs
      rintro rfl
      exact hs (by decide +kernel)

theorem codeLines_nl (code : Str) : ∀ l ∈ codeLines code, '\n' ∉ l := by
  intro l hl
  unfold codeLines at hl
  split at hl
  · cases hl
  · exact splitOn_no_sep '\n' _ l hl

/-- The lines of a block. -/
def blockLines (h code : Str) : List Str := (h ++ S "{") :: (codeLines code ++ [S "  return 0;", S "}"])

theorem joinWith_append (s : Str) : ∀ (a b : List Str), a ≠ [] → b ≠ [] → joinWith s (a ++ b) = joinWith s a ++ s ++ joinWith s b
  | [], _, h, _ => absurd rfl h
  | [x], b :: bs, _, _ => by simp [joinWith]
  | x :: y :: a, b, _, hb => by
    have ih := joinWith_append s (y :: a) b (by simp) hb
    rw [List.cons_append, List.cons_append, joinWith, ← List.cons_append, ih]
    simp [joinWith]

theorem blockText_lines (h code : Str) : h ++ blockText code = joinWith ['\n'] (blockLines h code) := by
  unfold blockText blockLines codeLines
  split
  · simp [joinWith, S]
  · have hne := splitOn_ne_nil '\n' (indent code 2)
    rw [show (h ++ S "{") :: (splitOn '\n' (indent code 2) ++ [S "  return 0;", S "}"]) =
      [h ++ S "{"] ++ (splitOn '\n' (indent code 2) ++ [S "  return 0;", S "}"]) from rfl,
      joinWith_append _ _ _ (by simp) (by simp), joinWith_append _ _ _ hne (by simp), join_splitOn]
    simp [joinWith, S]

theorem split_join_append : ∀ (L : List Str), L ≠ [] → (∀ l ∈ L, '\n' ∉ l) → ∀ s, splitOn '\n' (joinWith ['\n'] L ++ '\n' :: s) = L ++ splitOn '\n' s
  | [], h, _, _ => absurd rfl h
  | [x], _, hn, s => by rw [joinWith, splitOn_append _ _ _ (hn x (by simp))]; rfl
  | x :: y :: r, _, hn, s => by
    rw [joinWith, List.append_assoc, List.append_assoc, List.singleton_append, splitOn_append _ _ _ (hn x (by simp)),
      split_join_append (y :: r) (by simp) (fun l hl => hn l (by simp [hl])) s]
    rfl

theorem blockLines_nl {h : Str} (hh : '\n' ∉ h) (code : Str) : ∀ l ∈ blockLines h code, '\n' ∉ l := by
  intro l hl
  simp only [blockLines, List.mem_cons, List.mem_append, List.not_mem_nil, or_false] at hl
  rcases hl with rfl | hl | rfl | rfl
  · simp only [List.mem_append, not_or]; exact ⟨hh, by decide +kernel⟩
  · exact codeLines_nl code l hl
  · decide +kernel
  · decide +kernel

theorem blocks_body (h : Str) (r : List Str) : ∀ (L b : List Str), (∀ l ∈ L, l ≠ "}".toList) →
    blocks (some (h, b)) (L ++ S "}" :: r) = (blocks none r).map (fun x => (h, b ++ L) :: x)
  | [], b, _ => by
    rw [List.nil_append, blocks, if_pos (show S "}" = "}".toList from rfl), List.append_nil]
  | l :: L, b, hL => by
    rw [List.cons_append, blocks, if_neg (hL l (by simp)), blocks_body h r L (b ++ [l]) (fun x hx => hL x (by simp [hx]))]
    simp

theorem blocks_lines (h code : Str) (r : List Str) : blocks none (blockLines h code ++ r) = (blocks none r).map (fun x => (h, codeLines code ++ [S "  return 0;"]) :: x) := by
  have e : blockLines h code ++ r = (h ++ S "{") :: ((codeLines code ++ [S "  return 0;"]) ++ S "}" :: r) := by simp [blockLines]
  rw [e, blocks, if_neg (by simp [S])]
  have hb : BashText.between [] "{".toList (h ++ S "{") = some h := BashWrap.between_suffix h (S "{")
  rw [hb, Option.bind_some, blocks_body]
  · simp
  · intro l hl
    rcases List.mem_append.mp hl with hl | hl
    · exact codeLines_close code l hl
    · simp only [List.mem_singleton] at hl
      subst hl
      decide +kernel

/-- The blocks of a text. -/
theorem blocks_text : ∀ (bs : List (Str × Str)), (∀ b ∈ bs, '\n' ∉ b.1) →
    blocks none (splitOn '\n' (joinWith (S "\n\n") (bs.map (fun b => b.1 ++ blockText b.2)))) =
      some (bs.map (fun b => (b.1, codeLines b.2 ++ [S "  return 0;"])))
  | [], _ => rfl
  | [b], hn => by
    have := blocks_lines b.1 b.2 []
    rw [List.append_nil] at this
    rw [List.map_cons, List.map_nil, joinWith, blockText_lines, splitOn_join _ _ (by simp [blockLines]) (blockLines_nl (hn b (by simp)) _), this]
    rfl
  | b :: b' :: r, hn => by
    have ih := blocks_text (b' :: r) (fun x hx => hn x (by simp [hx]))
    have e : joinWith (S "\n\n") ((b :: b' :: r).map (fun b => b.1 ++ blockText b.2)) =
        joinWith ['\n'] (blockLines b.1 b.2) ++ '\n' :: ([] ++ '\n' :: joinWith (S "\n\n") ((b' :: r).map (fun b => b.1 ++ blockText b.2))) := by
      rw [List.map_cons, List.map_cons, joinWith, blockText_lines]
      simp [S]
    rw [e, split_join_append _ (by simp [blockLines]) (blockLines_nl (hn b (by simp)) _), splitOn_append _ _ _ (by simp), blocks_lines, blocks, if_pos rfl, ih]
    rfl

/-- The block that is entered. -/
theorem run_blocks (env : BashOffers.Env) : ∀ (bs : List (Str × Str × Bool)),
    (∀ b ∈ bs, ∃ e, condition b.1 = some e ∧ succeeds env e = some b.2.2) →
    run env (bs.map (fun b => (b.1, codeLines b.2.1 ++ [S "  return 0;"]))) = some ((bs.find? (fun b => b.2.2)).map (fun b => codeLines b.2.1))
  | [], _ => rfl
  | (h, code, v) :: r, hb => by
    obtain ⟨e, h1, h2⟩ := hb (h, code, v) (by simp)
    simp only at h1 h2
    rw [List.map_cons, run, h1, Option.bind_some, h2, Option.bind_some, List.find?_cons]
    cases v with
    | true => simp [S]
    | false =>
      simp only [Bool.false_eq_true, if_false]
      exact run_blocks env r (fun b hm => hb b (by simp [hm]))

end BlocksLex
end CC
