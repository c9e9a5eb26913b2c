import Verif.Lemmas.BashBlocksText
import Verif.Lemmas.BashOffersEntry
/-!
# Lemmas: the conditions of blocks
-/

namespace CC
namespace BlocksLex
open ShellGrammar (Expr DenotesAt Denotes Tok parse_complete)
open FishReads (mapTok)
open WhenSpec
open BashText (isName)
open BashOffers (Env)
open BashBlocks
open OffersLex

/-! ## Arithmetic -/

theorem fields_chars : ∀ (t a w : Str), w ∈ BashText.fields a t → ∀ c ∈ w, c ∈ a ∨ c ∈ t
  | [], a, w, h, c, hc => by
    unfold BashText.fields at h
    split at h
    · cases h
    · simp only [List.mem_singleton] at h; subst h; exact .inl hc
  | x :: t, a, w, h, c, hc => by
    unfold BashText.fields at h
    split at h
    · split at h
      · rcases fields_chars t [] w h c hc with h | h
        · cases h
        · exact .inr (by simp [h])
      · rcases List.mem_cons.mp h with h | h
        · subst h; exact .inl hc
        · rcases fields_chars t [] w h c hc with h | h
          · cases h
          · exact .inr (by simp [h])
    · rcases fields_chars t (a ++ [x]) w h c hc with h | h
      · rcases List.mem_append.mp h with h | h
        · exact .inl h
        · exact .inr (by simp only [List.mem_singleton] at h; simp [h])
      · exact .inr (by simp [h])

theorem splitOr_one : ∀ (l : List Str), (∀ w ∈ l, w ≠ "||".toList) → splitOr l = [l]
  | [], _ => rfl
  | w :: r, h => by
    rw [splitOr, if_neg (h w (by simp)), splitOr_one r (fun x hx => h x (by simp [hx]))]

theorem arithmetic_noOr (env : Env) {t : Str} (h : '|' ∉ t) : arithmetic env t = BashOffers.arithmetic env t := by
  have h1 : ∀ w ∈ BashText.fields [] t, w ≠ "||".toList := by
    rintro w hw rfl
    rcases fields_chars t [] _ hw '|' (by decide +kernel) with q | q
    · cases q
    · exact h q
  unfold arithmetic BashOffers.arithmetic
  rw [splitOr_one _ h1, List.map_cons, List.map_nil]
  cases BashText.allSome ((BashOffers.splitAnd (BashText.fields [] t)).map (BashOffers.test env)) with
  | none => rfl
  | some bs => simp [BashText.allSome]

/-- The words of a comparison. -/
def posFields (parents : List Cmd) (p : Pos) : List Str :=
  [lenWord (S "POSITIONALS"), if p.repeatable then S ">=" else S "==", intStr (positionalNum parents p.number)]

theorem intStr_word (n : Int) : ' ' ∉ intStr n ∧ intStr n ≠ [] := by
  refine ⟨ZshLex.intStr_not (by decide) (by decide), ?_⟩
  unfold intStr; split <;> simp [natStr, Nat.toDigits_ne_nil]

theorem positionText_words (parents : List Cmd) (p : Pos) (t : Str) :
    BashText.fields [] (positionText parents p ++ ' ' :: t) = posFields parents p ++ BashText.fields [] t := by
  have e : positionText parents p ++ ' ' :: t = lenWord (S "POSITIONALS") ++ ' ' :: ((if p.repeatable then S ">=" else S "==") ++ ' ' ::
      (intStr (positionalNum parents p.number) ++ ' ' :: t)) := by simp [positionText, lenWord, S]
  have ho : ' ' ∉ (if p.repeatable then S ">=" else S "==") ∧ (if p.repeatable then S ">=" else S "==") ≠ [] := by
    split <;> decide +kernel
  rw [e, BashCalls.fields_first (lenWord_word positionals_name).1 (lenWord_word positionals_name).2, BashCalls.fields_first ho.1 ho.2,
    BashCalls.fields_first (intStr_word _).1 (intStr_word _).2]
  rfl

theorem fields_positions (parents : List Cmd) : ∀ (ps : List Pos) (p : Pos),
    BashText.fields [] (joinWith (S " || ") ((p :: ps).map (positionText parents)) ++ [' ']) =
      posFields parents p ++ ps.flatMap (fun q => S "||" :: posFields parents q)
  | [], p => by
    rw [List.map_cons, List.map_nil, joinWith, positionText_words]
    rfl
  | q :: r, p => by
    have ih := fields_positions parents r q
    have e : joinWith (S " || ") ((p :: q :: r).map (positionText parents)) ++ [' '] =
        positionText parents p ++ ' ' :: (S "||" ++ ' ' :: (joinWith (S " || ") ((q :: r).map (positionText parents)) ++ [' '])) := by
      simp [joinWith, S]
    rw [e, positionText_words, BashCalls.fields_first (by decide +kernel) (by decide +kernel), ih]
    simp

theorem posFields_or (parents : List Cmd) (p : Pos) : ∀ w ∈ posFields parents p, w ≠ "||".toList ∧ w ≠ "&&".toList := by
  intro w hw
  simp only [posFields, List.mem_cons, List.not_mem_nil, or_false] at hw
  rcases hw with rfl | rfl | rfl
  · exact ⟨by decide +kernel, by decide +kernel⟩
  · split <;> decide +kernel
  · constructor
    · intro h
      exact ZshLex.intStr_not (n := positionalNum parents p.number) (x := '|') (by decide) (by decide) (by rw [h]; decide +kernel)
    · intro h
      exact ZshLex.intStr_not (n := positionalNum parents p.number) (x := '&') (by decide) (by decide) (by rw [h]; decide +kernel)

theorem splitOr_append : ∀ (a : List Str) (r : List Str), (∀ w ∈ a, w ≠ "||".toList) → splitOr (a ++ S "||" :: r) = a :: splitOr r
  | [], r, _ => by rw [List.nil_append, splitOr, if_pos (show S "||" = "||".toList from rfl)]
  | w :: a, r, h => by
    rw [List.cons_append, splitOr, if_neg (h w (by simp)), splitOr_append a r (fun x hx => h x (by simp [hx]))]

theorem splitOr_positions (parents : List Cmd) : ∀ (ps : List Pos) (p : Pos),
    splitOr (posFields parents p ++ ps.flatMap (fun q => S "||" :: posFields parents q)) = (p :: ps).map (posFields parents)
  | [], p => by
    rw [List.flatMap_nil, List.append_nil, splitOr_one _ (fun w hw => (posFields_or parents p w hw).1)]
    rfl
  | q :: r, p => by
    have ih := splitOr_positions parents r q
    rw [List.flatMap_cons, List.cons_append, splitOr_append _ _ (fun w hw => (posFields_or parents p w hw).1), ih]
    rfl

/-- The number of words is one for which a positional is completed. -/
def here (parents : List Cmd) (count : Nat) (p : Pos) : Bool :=
  if p.repeatable then decide (positionalNum parents p.number ≤ count) else decide (count = positionalNum parents p.number)

theorem test_position (env : Env) (parents : List Cmd) (p : Pos) :
    (BashText.allSome ((BashOffers.splitAnd (posFields parents p)).map (BashOffers.test env))).map (fun bs => bs.all id) =
      some (here parents (env.arrays (S "POSITIONALS")).length p) := by
  have h := fun w hw => (posFields_or parents p w hw).2
  have hnum : BashOffers.operand env (intStr (positionalNum parents p.number)) = some ((positionalNum parents p.number : Nat) : Int) := by
    unfold BashOffers.operand
    rw [between_not, number_intStr]
    rintro ⟨r, hr⟩
    exact ZshLex.intStr_not (n := positionalNum parents p.number) (x := '$') (by decide) (by decide) (by rw [← hr]; simp)
  have hs : BashOffers.splitAnd (posFields parents p) = [posFields parents p] := by
    unfold posFields at h ⊢
    simp only [BashOffers.splitAnd]
    rw [if_neg (h (intStr (positionalNum parents p.number)) (by simp)), if_neg (h (if p.repeatable then S ">=" else S "==") (by simp)), if_neg (h (lenWord (S "POSITIONALS")) (by simp))]
  have ho : (if p.repeatable then S ">=" else S "==") ≠ "+".toList := by split <;> decide +kernel
  rw [hs, List.map_cons, List.map_nil]
  unfold posFields
  rw [BashOffers.test, if_neg ho, operand_len env positionals_name, Option.bind_some, hnum, Option.bind_some]
  unfold here
  cases p.repeatable with
  | true =>
    simp only [if_true]
    have : ZshText.compares (S ">=") ((env.arrays (S "POSITIONALS")).length : Int) ((positionalNum parents p.number : Nat) : Int) =
        some (decide (((positionalNum parents p.number : Nat) : Int) ≤ ((env.arrays (S "POSITIONALS")).length : Int))) := rfl
    rw [this]
    simp [BashText.allSome]
  | false =>
    simp only [Bool.false_eq_true, if_false]
    have : ZshText.compares (S "==") ((env.arrays (S "POSITIONALS")).length : Int) ((positionalNum parents p.number : Nat) : Int) =
        some (decide (((env.arrays (S "POSITIONALS")).length : Int) = ((positionalNum parents p.number : Nat) : Int))) := rfl
    rw [this]
    simp [BashText.allSome]
    omega

/-- What stands in `(( ))`. -/
def positionsText (parents : List Cmd) (ps : List Pos) : Str := ' ' :: (joinWith (S " || ") (ps.map (positionText parents)) ++ [' '])

theorem allSome_somes {α β : Type} (f : α → Option β) (g : α → β) : ∀ (l : List α), (∀ x ∈ l, f x = some (g x)) → BashText.allSome (l.map f) = some (l.map g)
  | [], _ => rfl
  | x :: l, h => by
    rw [List.map_cons, h x (by simp), BashText.allSome, allSome_somes f g l (fun y hy => h y (by simp [hy]))]
    rfl

theorem arithmetic_positions (env : Env) (parents : List Cmd) {ps : List Pos} (hne : ps ≠ []) :
    arithmetic env (positionsText parents ps) = some (ps.any (here parents (env.arrays (S "POSITIONALS")).length)) := by
  obtain ⟨p, r, rfl⟩ := List.exists_cons_of_ne_nil hne
  have e : BashText.fields [] (positionsText parents (p :: r)) = posFields parents p ++ r.flatMap (fun q => S "||" :: posFields parents q) := by
    unfold positionsText
    rw [BashText.fields, if_pos rfl, if_pos (show List.isEmpty [] = true from rfl), fields_positions]
  unfold arithmetic
  rw [e, splitOr_positions, List.map_map, allSome_somes _ (here parents (env.arrays (S "POSITIONALS")).length) (p :: r)
    (fun q _ => by rw [Function.comp_apply]; exact test_position env parents q)]
  simp [List.any_map]

theorem positionText_not (parents : List Cmd) (p : Pos) {x : Char} (hx : x ∈ [')', '\n']) : x ∉ positionText parents p := by
  have h1 : x ∉ intStr (positionalNum parents p.number) := by
    simp only [List.mem_cons, List.not_mem_nil, or_false] at hx
    rcases hx with rfl | rfl
    · exact ZshLex.intStr_not (by decide) (by decide)
    · exact ZshLex.intStr_not (by decide) (by decide)
  have h2 : x ∉ S "${#POSITIONALS[@]} " ∧ x ∉ S ">=" ∧ x ∉ S "==" ∧ x ∉ [' '] := by
    simp only [List.mem_cons, List.not_mem_nil, or_false] at hx
    rcases hx with rfl | rfl <;> decide +kernel
  unfold positionText
  simp only [List.mem_append, not_or]
  refine ⟨⟨⟨h2.1, ?_⟩, h2.2.2.2⟩, h1⟩
  split
  · exact h2.2.1
  · exact h2.2.2.1

theorem joinWith_not {x : Char} {s : Str} (hs : x ∉ s) : ∀ (l : List Str), (∀ w ∈ l, x ∉ w) → x ∉ joinWith s l
  | [], _ => by simp [joinWith]
  | [w], h => by simpa [joinWith] using h w (by simp)
  | w :: v :: r, h => by
    have ih := joinWith_not hs (v :: r) (fun y hy => h y (by simp [hy]))
    simp only [joinWith, List.mem_append, not_or]
    exact ⟨⟨h w (by simp), hs⟩, ih⟩

theorem positionsText_not (parents : List Cmd) (ps : List Pos) {x : Char} (hx : x ∈ [')', '\n']) : x ∉ positionsText parents ps := by
  have h2 : x ∉ S " || " ∧ x ≠ ' ' := by
    simp only [List.mem_cons, List.not_mem_nil, or_false] at hx
    rcases hx with rfl | rfl <;> decide +kernel
  unfold positionsText
  simp only [List.mem_cons, List.mem_append, List.not_mem_nil, or_false, not_or]
  refine ⟨h2.2, joinWith_not h2.1 _ ?_, h2.2⟩
  intro w hw
  obtain ⟨p, -, rfl⟩ := List.mem_map.mp hw
  exact positionText_not parents p hx

/-! ## Lists -/

/-- The command of a part of the condition of a block; `noneSet []`, which is not used otherwise, stands for the place. -/
def blockSimple (pre a : Str) : OSPrim → ZshText.Simple
  | .noneSet [] => .arith a
  | p => osSimple pre p

/-- The value of a part of the condition of a block. -/
def blockValue (rx : Bool → Str → Str → Bool) (σ : BashState) (b : Bool) : OSPrim → Bool
  | .noneSet [] => b
  | p => p.succeeds rx σ

theorem blockSimple_plain (pre a : Str) (p : OSPrim) : ZshLex.startsPlain (blockSimple pre a p) := by
  unfold blockSimple
  split
  · trivial
  · exact osSimple_plain pre _

theorem block_pieces (pre a : Str) (code : List (Tok BashPrim)) : (code.map liftTok).flatMap (pieceOf (blockSimple pre a)) = code.flatMap (pieceOf (primSimple pre)) := by
  rw [List.flatMap_map]
  congr 1
  funext t
  cases t <;> rfl

theorem liftExpr_block (rx : Bool → Str → Str → Bool) (σ : BashState) (b : Bool) (e : Expr BashPrim) :
    (liftExpr e).eval (blockValue rx σ b) = e.eval (BashPrim.succeeds rx σ) := by
  induction e with
  | atom a => rfl
  | not e ih => simp [liftExpr, Expr.eval, ih]
  | and e f ih1 ih2 => simp [liftExpr, Expr.eval, ih1, ih2]
  | or e f ih1 ih2 => simp [liftExpr, Expr.eval, ih1, ih2]

theorem noBar_sum {vars : List Str} (h : ∀ v ∈ vars, isName v = true) : '|' ∉ sumText vars := by
  unfold sumText
  simp only [List.cons_append, List.mem_cons, List.mem_append, List.not_mem_nil, or_false, not_or]
  refine ⟨by decide, joinWith_not (by decide +kernel) _ ?_, by decide⟩
  intro w hw
  obtain ⟨v, hv, rfl⟩ := List.mem_map.mp hw
  simp only [List.mem_append, not_or]
  refine ⟨⟨by decide +kernel, ?_⟩, by decide +kernel⟩
  intro hm
  have := List.all_eq_true.mp (BashText.isName_all (h v hv)) _ hm
  exact absurd this (by decide)

theorem simple_when {pre : Str} (hp : ∀ c ∈ pre, ZshLex.idChar c = true) (rx : Bool → Str → Str → Bool) (env : Env) (henv : env.call = bashHelperCall pre rx)
    (p : BashPrim) (hg : primGood p) : simple env (primSimple pre p) = some (p.succeeds rx (stateOf env)) := by
  have h := simple_prim hp rx env henv {} (.when_ p) hg
  rw [osSimple] at h
  cases p with
  | anySet vars =>
    rw [primSimple, BashOffers.simple] at h
    rw [primSimple, simple, arithmetic_noOr env (noBar_sum hg.2)]
    cases hx : BashOffers.arithmetic env (sumText vars) with
    | none => rw [hx] at h; cases h
    | some b => rw [hx] at h; simp only [Option.map_some, Option.some.injEq, Prod.mk.injEq] at h; rw [h.1]; rfl
  | posCount op n =>
    have hb : '|' ∉ S " ${#POSITIONALS[@]} " ++ op.text ++ [' '] ++ intStr n ++ [' '] := by
      simp only [List.mem_append, not_or]
      exact ⟨⟨⟨⟨by decide +kernel, by cases op <;> decide +kernel⟩, by decide⟩, ZshLex.intStr_not (by decide) (by decide)⟩, by decide⟩
    rw [primSimple, BashOffers.simple] at h
    rw [primSimple, simple, arithmetic_noOr env hb]
    cases hx : BashOffers.arithmetic env (S " ${#POSITIONALS[@]} " ++ op.text ++ [' '] ++ intStr n ++ [' ']) with
    | none => rw [hx] at h; cases h
    | some b => rw [hx] at h; simp only [Option.map_some, Option.some.injEq, Prod.mk.injEq] at h; rw [h.1]; rfl
  | arrayContains nc v refs => rw [primSimple] at h ⊢; rw [simple, h]; rfl
  | arrayMatch nc v refs => rw [primSimple] at h ⊢; rw [simple, h]; rfl
  | posContains nc i vals => rw [primSimple] at h ⊢; rw [simple, h]; rfl

theorem succeeds_mapped (env : Env) {α : Type} (f : α → ZshText.Simple) (b : α → Bool) {l : ShellGrammar.Level} {ts : List (Tok α)}
    {e : Expr α} (h : DenotesAt l ts e) (hs : ∀ k, .cmd k ∈ ts → simple env (f k) = some (b k)) :
    succeeds env (FishReads.mapExpr f e) = some (e.eval b) := by
  induction h with
  | pipe _ ih => exact ih hs
  | and _ _ ih1 ih2 =>
    rw [FishReads.mapExpr, succeeds, ih1 (fun k hk => hs k (by simp [hk])), Option.bind_some]
    simp only [Expr.eval]
    rename_i e f _ _
    cases he : e.eval b with
    | true => simp only [if_true, Bool.true_and]; exact ih2 (fun k hk => hs k (by simp [hk]))
    | false => simp
  | or _ _ ih1 ih2 =>
    rw [FishReads.mapExpr, succeeds, ih1 (fun k hk => hs k (by simp [hk])), Option.bind_some]
    simp only [Expr.eval]
    rename_i e f _ _
    cases he : e.eval b with
    | true => simp
    | false => simp only [Bool.false_eq_true, if_false, Bool.false_or]; exact ih2 (fun k hk => hs k (by simp [hk]))
  | cmd a => exact hs a (by simp)
  | not _ ih =>
    rw [FishReads.mapExpr, succeeds, ih (fun k hk => hs k (by simp [hk]))]
    rfl
  | group _ ih => exact ih (fun k hk => hs k (by simp [hk]))

/-- The condition in front of `&&`. -/
theorem condition_text {α : Type} (f : α → ZshText.Simple) (hf : ∀ a, ZshLex.startsPlain (f a)) {t : Str} {toks : List (Tok α)} {e : Expr α}
    (hr : ZshLex.Reads t (toks.flatMap (pieceOf f))) (hd : Denotes toks e) : condition (t ++ S " && ") = some (FishReads.mapExpr f e) := by
  unfold condition ZshText.tokens
  have e1 : t ++ S " && " = (t ++ [' ']) ++ S "&& " := by simp [S]
  have h0 : ZshText.run {} (t ++ [' ']) = some ⟨.gap, [], toks.flatMap (pieceOf f)⟩ := by
    have := hr [] ' ' (by simp)
    rw [ZshLex.gapStep_space] at this
    exact this
  have h1 : ∀ o, ZshText.run ⟨.gap, [], o⟩ (S "&& ") = some ⟨.gap, [], o ++ [.and]⟩ := fun o =>
    ZshLex.run_out (m := .gap) (w := []) (ts := [.and]) rfl o
  rw [e1, ZshLex.run_append, h0, Option.bind_some, h1, Option.bind_some]
  simp only [ZshText.finish, Option.bind_some]
  rw [(scan_pieces f hf [] toks).1 (ZshLex.denotes_alternates hd)]
  simp only [ZshText.scan, Option.map_some, Option.bind_some, List.getLast?_concat, if_true, List.dropLast_concat]
  exact parse_complete (ZshLex.denotes_map f hd)

end BlocksLex
end CC
