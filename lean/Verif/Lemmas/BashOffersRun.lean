import Verif.Lemmas.BashOffersText
/-!
# Lemmas: what Bash does with the lines that offer option strings
-/

namespace CC
namespace OffersLex
open ShellGrammar (Expr DenotesAt Denotes)
open FishReads (mapTok)
open BashText (isName nameChar spanName between)
open BashOffers

/-- The arrays that conditions look at. -/
def stateOf (env : Env) : BashState := ⟨env.arrays, env.arrays (S "POSITIONALS")⟩

/-! ## Words -/

theorem span_name {v : Str} (h : isName v = true) (t : Str) (ht : ∀ c, t.head? = some c → nameChar c = false) : spanName (v ++ t) = some (v, t) := by
  have ha := BashText.isName_all h
  have h1 : (v ++ t).takeWhile nameChar = v := by
    rw [List.takeWhile_append_of_pos (fun x hx => List.all_eq_true.mp ha x hx)]
    cases t with
    | nil => simp
    | cons c r => simp [ht c rfl]
  have h2 : (v ++ t).dropWhile nameChar = t := by
    rw [List.dropWhile_append_of_pos (fun x hx => List.all_eq_true.mp ha x hx)]
    cases t with
    | nil => simp
    | cons c r => simp [ht c rfl]
  unfold spanName
  rw [h1, h2, if_pos h]

theorem between_not {p q t : Str} (h : ¬ p <+: t) : between p q t = none := by
  unfold between BashText.without
  rw [if_neg (by rwa [List.isPrefixOf_iff_prefix])]
  rfl

theorem literal_quoted (w : Str) : literal (quote w) = some w := by
  unfold literal
  rw [C01_quote_roundtrip w]

theorem expand_quoted (env : Env) (w : Str) : expand env (quote w) = some [w] := by
  unfold expand
  rw [between_not, literal_quoted]
  · rfl
  · rintro ⟨r, e⟩
    have := C01_quote_roundtrip w
    rw [← e] at this
    have h2 : ("\"${".toList ++ r) = '"' :: '$' :: ('{' :: r) := rfl
    rw [h2, ZshLex.words_dollar] at this
    cases this

theorem expand_plain (env : Env) {s : Str} (hne : s ≠ []) (h : ∀ c ∈ s, isSafeChar c = true) : expand env s = some [s] := by
  have := expand_quoted env s
  rwa [quote_safe s hne h] at this

theorem drop_last (a : List Str) : a.drop (a.length - 1) = a.getLast?.toList := by
  induction a with
  | nil => rfl
  | cons x r ih =>
    cases r with
    | nil => rfl
    | cons y z => rw [List.getLast?_cons_cons, ← ih]; simp

theorem expand_refWord (env : Env) (r : VarRef) (h : isName r.var = true) : expand env (refWord r) = some (lastOrAll r.all (env.arrays r.var)) := by
  unfold expand refWord
  have hb := BashCalls.between_both (S "\"${") (S "}\"") (r.var ++ (if r.all then S "[@]" else S "[@]: -1:1"))
  rw [List.append_assoc]
  have e : between "\"${".toList "}\"".toList (S "\"${" ++ (r.var ++ (if r.all then S "[@]" else S "[@]: -1:1") ++ S "}\"")) =
      some (r.var ++ (if r.all then S "[@]" else S "[@]: -1:1")) := hb
  rw [e]
  simp only
  rw [span_name h _ (by
    intro c hc
    have : c = '[' := by
      cases hr : r.all <;> rw [hr] at hc <;> simp [S] at hc <;> exact hc.symm
    rw [this]; decide)]
  simp only [Option.bind_some]
  cases hr : r.all with
  | true =>
    rw [if_pos (show (if true = true then S "[@]" else S "[@]: -1:1") = "[@]".toList from rfl)]
    simp [lastOrAll]
  | false =>
    rw [if_neg (show ¬ (if false = true then S "[@]" else S "[@]: -1:1") = "[@]".toList by decide),
      if_pos (show (if false = true then S "[@]" else S "[@]: -1:1") = "[@]: -1:1".toList from rfl), drop_last]
    simp [lastOrAll]

theorem element_index (a : List Str) (n : Int) : element a n = bashIndex a n := by
  unfold element bashIndex
  by_cases h : n < 0
  · rw [if_neg (by omega)]
    simp only [if_pos h]
    by_cases h2 : (a.length : Int) + n < 0
    · rw [if_neg (by omega), if_pos h2]
    · rw [if_pos (by omega), if_neg h2]
      congr 2
      omega
  · rw [if_pos (by omega)]
    simp only [if_neg h]

theorem positionals_name : isName (S "POSITIONALS") = true := by decide +kernel

theorem expand_position (env : Env) (nc : Bool) (n : Int) :
    expand env (S "\"${" ++ (S "POSITIONALS[" ++ intStr n ++ (if nc then S "],," else S "]")) ++ S "}\"") =
      some [if nc then lower (bashIndex (env.arrays (S "POSITIONALS")) n) else bashIndex (env.arrays (S "POSITIONALS")) n] := by
  unfold expand
  have hb := BashCalls.between_both (S "\"${") (S "}\"") (S "POSITIONALS[" ++ intStr n ++ (if nc then S "],," else S "]"))
  rw [List.append_assoc (S "\"${")]
  have e : between "\"${".toList "}\"".toList (S "\"${" ++ ((S "POSITIONALS[" ++ intStr n ++ (if nc then S "],," else S "]")) ++ S "}\"")) =
      some (S "POSITIONALS[" ++ intStr n ++ (if nc then S "],," else S "]")) := hb
  rw [e]
  simp only
  have e2 : S "POSITIONALS[" ++ intStr n ++ (if nc then S "],," else S "]") = S "POSITIONALS" ++ (S "[" ++ (intStr n ++ (if nc then S "],," else S "]"))) := by
    simp [S]
  rw [e2, span_name positionals_name _ (by intro c hc; simp [S] at hc; subst hc; decide)]
  simp only [Option.bind_some]
  have hd : ∀ t : Str, '@' ∉ intStr n ++ (if nc then S "],," else S "]") := by
    intro _
    rw [List.mem_append, not_or]
    exact ⟨ZshLex.intStr_not (by decide) (by decide), by cases nc <;> decide +kernel⟩
  have hne1 : ¬ S "[" ++ (intStr n ++ (if nc then S "],," else S "]")) = "[@]".toList := by
    intro h
    have h2 : intStr n ++ (if nc then S "],," else S "]") = "@]".toList := List.append_cancel_left (as := S "[") h
    exact hd [] (by rw [h2]; decide)
  have hne2 : ¬ S "[" ++ (intStr n ++ (if nc then S "],," else S "]")) = "[@]: -1:1".toList := by
    intro h
    have h2 : intStr n ++ (if nc then S "],," else S "]") = "@]: -1:1".toList := List.append_cancel_left (as := S "[") h
    exact hd [] (by rw [h2]; decide)
  rw [if_neg hne1, if_neg hne2]
  cases nc with
  | false =>
    have hb2 : between "[".toList "]".toList (S "[" ++ (intStr n ++ (if false = true then S "],," else S "]"))) = some (intStr n) :=
      BashCalls.between_both (S "[") (S "]") (intStr n)
    rw [hb2]
    simp only [number_intStr, Option.map_some, element_index, Bool.false_eq_true, if_false]
  | true =>
    have hb2 : between "[".toList "],,".toList (S "[" ++ (intStr n ++ (if true = true then S "],," else S "]"))) = some (intStr n) :=
      BashCalls.between_both (S "[") (S "],,") (intStr n)
    have hb3 : between "[".toList "]".toList (S "[" ++ (intStr n ++ (if true = true then S "],," else S "]"))) = none := by
      unfold between BashText.without
      rw [if_pos (by rw [List.isPrefixOf_iff_prefix]; exact List.prefix_append _ _), Option.bind_some]
      rw [if_neg]
      intro hs
      rw [List.isSuffixOf_iff_suffix] at hs
      obtain ⟨r, hr⟩ := hs
      have h1 := congrArg List.getLast? hr
      have h3 : List.drop "[".toList.length (S "[" ++ (intStr n ++ (if true = true then S "],," else S "]"))) = intStr n ++ S "],," := rfl
      rw [h3, List.getLast?_append, List.getLast?_append] at h1
      simp [S] at h1
    rw [hb3]
    show ((between "[".toList "],,".toList (S "[" ++ (intStr n ++ (if true = true then S "],," else S "]")))).bind fun n =>
      Option.map (fun n => [ZshText.small (element (env.arrays (S "POSITIONALS")) n)]) (Decimal.number n)) = _
    rw [hb2]
    simp only [Option.bind_some, number_intStr, Option.map_some, element_index, ZshLex.small_eq, if_true]

theorem expandAll_cons (env : Env) {t : Str} {ts xs ys : List Str} (h : expand env t = some xs) (h2 : expandAll env ts = some ys) :
    expandAll env (t :: ts) = some (xs ++ ys) := by
  unfold expandAll at h2 ⊢
  rw [List.map_cons, BashText.allSome, h]
  cases hb : BashText.allSome (ts.map (expand env)) with
  | none => rw [hb] at h2; cases h2
  | some r =>
    rw [hb] at h2
    simp only [Option.map_some, Option.some.injEq] at h2
    subst h2
    rfl

theorem expandAll_quoted (env : Env) (ws : List Str) : expandAll env (ws.map (fun w => quote w)) = some ws := by
  induction ws with
  | nil => rfl
  | cons w r ih => rw [List.map_cons, expandAll_cons env (expand_quoted env w) ih]; rfl

theorem expandAll_refs (env : Env) (refs : List VarRef) (h : ∀ r ∈ refs, isName r.var = true) :
    expandAll env (refs.map refWord) = some (refs.flatMap (fun r => lastOrAll r.all (env.arrays r.var))) := by
  induction refs with
  | nil => rfl
  | cons w r ih => rw [List.map_cons, expandAll_cons env (expand_refWord env w (h w (by simp))) (ih (fun x hx => h x (by simp [hx])))]; rfl

/-! ## Arithmetic -/

/-- `${#V[@]}`. -/
def lenWord (v : Str) : Str := S "${#" ++ v ++ S "[@]}"

theorem lenWord_word {v : Str} (h : isName v = true) : ' ' ∉ lenWord v ∧ lenWord v ≠ [] := by
  constructor
  · unfold lenWord
    simp only [List.mem_append, not_or]
    refine ⟨⟨by decide +kernel, ?_⟩, by decide +kernel⟩
    intro hm
    exact absurd (name_chars h ' ' hm) (by decide)
  · simp [lenWord, S]

theorem operand_len (env : Env) {v : Str} (h : isName v = true) : operand env (lenWord v) = some ((env.arrays v).length : Int) := by
  unfold operand lenWord
  rw [List.append_assoc]
  have hb : between "${#".toList "[@]}".toList (S "${#" ++ (v ++ S "[@]}")) = some v := BashCalls.between_both (S "${#") (S "[@]}") v
  rw [hb]
  simp [h]

theorem fields_none : ∀ (vs : List Str) (v : Str), isName v = true → (∀ w ∈ vs, isName w = true) →
    BashText.fields [] (joinWith (S " && ") ((v :: vs).map noneText) ++ [' ']) = [S "!", lenWord v] ++ vs.flatMap (fun w => [S "&&", S "!", lenWord w])
  | [], v, h, _ => by
    have e : joinWith (S " && ") ([v].map noneText) ++ [' '] = S "!" ++ ' ' :: (lenWord v ++ ' ' :: []) := by simp [joinWith, noneText, lenWord, S]
    rw [e, BashCalls.fields_first (by decide +kernel) (by decide +kernel), BashCalls.fields_first (lenWord_word h).1 (lenWord_word h).2]
    rfl
  | w :: r, v, h, hr => by
    have e : joinWith (S " && ") ((v :: w :: r).map noneText) ++ [' '] =
        S "!" ++ ' ' :: (lenWord v ++ ' ' :: (S "&&" ++ ' ' :: (joinWith (S " && ") ((w :: r).map noneText) ++ [' ']))) := by
      simp [joinWith, noneText, lenWord, S]
    rw [e, BashCalls.fields_first (by decide +kernel) (by decide +kernel), BashCalls.fields_first (lenWord_word h).1 (lenWord_word h).2,
      BashCalls.fields_first (by decide +kernel) (by decide +kernel), fields_none r w (hr w (by simp)) (fun x hx => hr x (by simp [hx]))]
    simp

theorem lenWord_and (v : Str) : lenWord v ≠ "&&".toList ∧ lenWord v ≠ "+".toList := by
  constructor <;> intro h <;> simp [lenWord, S] at h

theorem splitAnd_none : ∀ (vs : List Str) (v : Str),
    splitAnd ([S "!", lenWord v] ++ vs.flatMap (fun w => [S "&&", S "!", lenWord w])) = (v :: vs).map (fun w => [S "!", lenWord w])
  | [], v => by
    simp only [List.flatMap_nil, List.append_nil, splitAnd]
    rw [if_neg (lenWord_and v).1, if_neg (show ¬ S "!" = "&&".toList by decide)]
    rfl
  | w :: r, v => by
    have ih := splitAnd_none r w
    have e : [S "!", lenWord v] ++ (w :: r).flatMap (fun w => [S "&&", S "!", lenWord w]) =
        S "!" :: lenWord v :: S "&&" :: ([S "!", lenWord w] ++ r.flatMap (fun w => [S "&&", S "!", lenWord w])) := by simp
    rw [e]
    simp only [splitAnd]
    rw [if_neg (show ¬ S "!" = "&&".toList by decide), if_neg (lenWord_and v).1, if_pos (show S "&&" = "&&".toList from rfl)]
    simp only [List.cons_append, List.nil_append, splitAnd] at ih
    simp only [List.cons_append, List.nil_append, splitAnd]
    rw [ih]
    rfl

theorem allSome_map {α β : Type} (f : α → Option β) (g : α → β) (l : List α) (h : ∀ a ∈ l, f a = some (g a)) : BashText.allSome (l.map f) = some (l.map g) := by
  induction l with
  | nil => rfl
  | cons a r ih =>
    rw [List.map_cons, BashText.allSome, h a (by simp), ih (fun x hx => h x (by simp [hx]))]
    rfl

theorem arithmetic_empty (env : Env) (vars : List Str) (hne : vars ≠ []) (h : ∀ v ∈ vars, isName v = true) :
    arithmetic env (emptyText vars) = some (vars.all (fun v => (env.arrays v).isEmpty)) := by
  obtain ⟨v, vs, rfl⟩ := List.exists_cons_of_ne_nil hne
  have e : BashText.fields [] (emptyText (v :: vs)) = BashText.fields [] (joinWith (S " && ") ((v :: vs).map noneText) ++ [' ']) := by
    show BashText.fields [] (' ' :: (joinWith (S " && ") ((v :: vs).map noneText) ++ [' '])) = _
    rw [BashText.fields, if_pos rfl]; rfl
  unfold arithmetic
  rw [e, fields_none vs v (h v (by simp)) (fun w hw => h w (by simp [hw])), splitAnd_none, List.map_map,
    allSome_map _ (fun v => (env.arrays v).isEmpty)]
  · simp [List.all_map, Function.comp_def]
  · intro w hw
    simp only [Function.comp_def, test]
    rw [if_pos (show S "!" = "!".toList from rfl), operand_len env (h w hw)]
    cases env.arrays w with
    | nil => rfl
    | cons a b => simp; omega

theorem fields_sum : ∀ (vs : List Str) (v : Str), isName v = true → (∀ w ∈ vs, isName w = true) →
    BashText.fields [] (joinWith (S " + ") ((v :: vs).map (fun v => S "${#" ++ v ++ S "[@]}")) ++ [' ']) = lenWord v :: vs.flatMap (fun w => [S "+", lenWord w])
  | [], v, h, _ => by
    have e : joinWith (S " + ") ([v].map (fun v => S "${#" ++ v ++ S "[@]}")) ++ [' '] = lenWord v ++ ' ' :: [] := by simp [joinWith, lenWord, S]
    rw [e, BashCalls.fields_first (lenWord_word h).1 (lenWord_word h).2]
    rfl
  | w :: r, v, h, hr => by
    have e : joinWith (S " + ") ((v :: w :: r).map (fun v => S "${#" ++ v ++ S "[@]}")) ++ [' '] =
        lenWord v ++ ' ' :: (S "+" ++ ' ' :: (joinWith (S " + ") ((w :: r).map (fun v => S "${#" ++ v ++ S "[@]}")) ++ [' '])) := by
      simp [joinWith, lenWord, S]
    rw [e, BashCalls.fields_first (lenWord_word h).1 (lenWord_word h).2,
      BashCalls.fields_first (by decide +kernel) (by decide +kernel), fields_sum r w (hr w (by simp)) (fun x hx => hr x (by simp [hx]))]
    simp

theorem splitAnd_sum : ∀ (vs : List Str) (v : Str),
    splitAnd (lenWord v :: vs.flatMap (fun w => [S "+", lenWord w])) = [lenWord v :: vs.flatMap (fun w => [S "+", lenWord w])]
  | [], v => by
    simp only [List.flatMap_nil, splitAnd]
    rw [if_neg (lenWord_and v).1]
  | w :: r, v => by
    have ih := splitAnd_sum r w
    have e : lenWord v :: (w :: r).flatMap (fun w => [S "+", lenWord w]) = lenWord v :: S "+" :: (lenWord w :: r.flatMap (fun w => [S "+", lenWord w])) := by simp
    rw [e, splitAnd, if_neg (lenWord_and v).1, splitAnd, if_neg (show ¬ S "+" = "&&".toList by decide), ih]

theorem sum_lens (env : Env) : ∀ (vs : List Str) (v : Str), isName v = true → (∀ w ∈ vs, isName w = true) →
    sum env (lenWord v :: vs.flatMap (fun w => [S "+", lenWord w])) = some ((((v :: vs).map (fun v => (env.arrays v).length)).sum : Nat) : Int)
  | [], v, h, _ => by
    simp only [List.flatMap_nil, sum]
    rw [operand_len env h]
    simp
  | w :: r, v, h, hr => by
    have ih := sum_lens env r w (hr w (by simp)) (fun x hx => hr x (by simp [hx]))
    have e : lenWord v :: (w :: r).flatMap (fun w => [S "+", lenWord w]) = lenWord v :: S "+" :: (lenWord w :: r.flatMap (fun w => [S "+", lenWord w])) := by simp
    rw [e, sum, if_pos (show S "+" = "+".toList from rfl), operand_len env h, ih]
    simp

theorem test_sum (env : Env) (vs : List Str) (v : Str) :
    test env (lenWord v :: vs.flatMap (fun w => [S "+", lenWord w])) = (sum env (lenWord v :: vs.flatMap (fun w => [S "+", lenWord w]))).map (fun n => decide (n ≠ 0)) := by
  match vs with
  | [] => rfl
  | [w] =>
    show test env [lenWord v, S "+", lenWord w] = _
    rw [test, if_pos (show S "+" = "+".toList from rfl)]
    rfl
  | w :: x :: r => rfl

theorem arithmetic_sum (env : Env) (vars : List Str) (hne : vars ≠ []) (h : ∀ v ∈ vars, isName v = true) :
    arithmetic env (sumText vars) = some ((vars.map (fun v => (env.arrays v).length)).sum != 0) := by
  obtain ⟨v, vs, rfl⟩ := List.exists_cons_of_ne_nil hne
  have e : BashText.fields [] (sumText (v :: vs)) = BashText.fields [] (joinWith (S " + ") ((v :: vs).map (fun v => S "${#" ++ v ++ S "[@]}")) ++ [' ']) := by
    show BashText.fields [] (' ' :: (joinWith (S " + ") ((v :: vs).map (fun v => S "${#" ++ v ++ S "[@]}")) ++ [' '])) = _
    rw [BashText.fields, if_pos rfl]; rfl
  unfold arithmetic
  rw [e, fields_sum vs v (h v (by simp)) (fun w hw => h w (by simp [hw])), splitAnd_sum, List.map_cons, List.map_nil, test_sum,
    sum_lens env vs v (h v (by simp)) (fun w hw => h w (by simp [hw]))]
  generalize ((v :: vs).map (fun v => (env.arrays v).length)).sum = n
  simp only [Option.map_some, BashText.allSome, Option.bind_some, List.all_cons, List.all_nil, Bool.and_true, id_eq, Option.some.injEq]
  rw [Bool.eq_iff_iff]
  simp

theorem arithmetic_count (env : Env) (op : CmpOp) (n : Int) :
    arithmetic env (S " ${#POSITIONALS[@]} " ++ op.text ++ [' '] ++ intStr n ++ [' ']) = some (op.holds (env.arrays (S "POSITIONALS")).length n) := by
  have hi : ' ' ∉ intStr n := ZshLex.intStr_not (by decide) (by decide)
  have hin : intStr n ≠ [] := by unfold intStr; split <;> simp [natStr, Nat.toDigits_ne_nil]
  have ho : ' ' ∉ op.text ∧ op.text ≠ [] ∧ op.text ≠ "&&".toList ∧ op.text ≠ "+".toList := by cases op <;> decide
  have e : BashText.fields [] (S " ${#POSITIONALS[@]} " ++ op.text ++ [' '] ++ intStr n ++ [' ']) = [lenWord (S "POSITIONALS"), op.text, intStr n] := by
    have e1 : S " ${#POSITIONALS[@]} " ++ op.text ++ [' '] ++ intStr n ++ [' '] =
        ' ' :: (lenWord (S "POSITIONALS") ++ ' ' :: (op.text ++ ' ' :: (intStr n ++ ' ' :: []))) := by simp [S, lenWord]
    rw [e1, BashText.fields, if_pos rfl, if_pos (show List.isEmpty [] = true from rfl), BashCalls.fields_first (lenWord_word positionals_name).1 (lenWord_word positionals_name).2,
      BashCalls.fields_first ho.1 ho.2.1, BashCalls.fields_first hi hin]
    rfl
  have hia : intStr n ≠ "&&".toList := by
    intro h
    exact ZshLex.intStr_not (n := n) (x := '&') (by decide) (by decide) (by rw [h]; decide)
  have hs : splitAnd [lenWord (S "POSITIONALS"), op.text, intStr n] = [[lenWord (S "POSITIONALS"), op.text, intStr n]] := by
    simp only [splitAnd]
    rw [if_neg hia, if_neg ho.2.2.1, if_neg (lenWord_and _).1]
  have hnum : operand env (intStr n) = some n := by
    unfold operand
    rw [between_not, number_intStr]
    rintro ⟨r, hr⟩
    exact ZshLex.intStr_not (n := n) (x := '$') (by decide) (by decide) (by rw [← hr]; simp)
  unfold arithmetic
  rw [e, hs, List.map_cons, List.map_nil, test, if_neg ho.2.2.2, operand_len env positionals_name, Option.bind_some, hnum, Option.bind_some, ZshLex.compares_text]
  simp [BashText.allSome]

/-! ## Commands -/

/-- The names of variables are names, and there are some. -/
def primGood : BashPrim → Prop
  | .arrayContains _ _ refs => ∀ r ∈ refs, isName r.var = true
  | .arrayMatch _ _ refs => ∀ r ∈ refs, isName r.var = true
  | .anySet vars => vars ≠ [] ∧ ∀ v ∈ vars, isName v = true
  | _ => True

def osGood : OSPrim → Prop
  | .noneSet vars => vars ≠ [] ∧ ∀ v ∈ vars, isName v = true
  | .when_ p => primGood p

theorem realName_expand (env : Env) {pre n : Str} (hp : ∀ c ∈ pre, ZshLex.idChar c = true) (hn : ∀ c ∈ n, ZshLex.idChar c = true) :
    expand env (realName pre n) = some [realName pre n] :=
  expand_plain env (ZshLex.realName_ne _ _) (fun c hc => ZshLex.idChar_safe (ZshLex.realName_id hp hn c hc))

theorem simple_prim {pre : Str} (hp : ∀ c ∈ pre, ZshLex.idChar c = true) (rx : Bool → Str → Str → Bool) (env : Env) (henv : env.call = bashHelperCall pre rx)
    (s : State) (p : OSPrim) (hg : osGood p) : simple env s (osSimple pre p) = some (p.succeeds rx (stateOf env), s) := by
  have hneq : realName pre (S "array_contains_nocase") ≠ realName pre (S "array_contains") ∧ realName pre (S "array_match") ≠ realName pre (S "array_contains") ∧
      realName pre (S "array_match") ≠ realName pre (S "array_contains_nocase") := by
    refine ⟨?_, ?_, ?_⟩ <;> intro h <;> exact absurd (List.append_cancel_left h) (by decide +kernel)
  cases p with
  | noneSet vars =>
    rw [osSimple, simple, arithmetic_empty env vars hg.1 hg.2]
    rfl
  | when_ p =>
    cases p with
    | arrayContains nc v refs =>
      have he := expandAll_cons env (realName_expand env hp (contains_nocase_id nc)) (expandAll_cons env (expand_quoted env v) (expandAll_refs env refs hg))
      rw [osSimple, primSimple, simple, he, Option.bind_some]
      simp only [List.cons_append, List.nil_append, henv, bashHelperCall]
      cases nc with
      | true =>
        simp only [if_true]
        rw [if_neg hneq.1]
        rfl
      | false =>
        rw [if_pos (show realName pre (if false = true then S "array_contains_nocase" else S "array_contains") = realName pre (S "array_contains") from rfl)]
        rfl
    | arrayMatch nc r refs =>
      have h1 : expandAll env (quote r :: refs.map refWord) = some ([r] ++ refs.flatMap (fun r => lastOrAll r.all (env.arrays r.var))) :=
        expandAll_cons env (expand_quoted env r) (expandAll_refs env refs hg)
      have h2 := expandAll_cons env (expand_plain env (s := S "--") (by decide) (by decide +kernel)) h1
      have h3 : expandAll env ((if nc then [S "-i"] else []) ++ S "--" :: quote r :: refs.map refWord) =
          some ((if nc then [S "-i"] else []) ++ ([S "--"] ++ ([r] ++ refs.flatMap (fun r => lastOrAll r.all (env.arrays r.var))))) := by
        cases nc with
        | true => exact expandAll_cons env (expand_plain env (s := S "-i") (by decide) (by decide +kernel)) h2
        | false => exact h2
      have he := expandAll_cons env (realName_expand env hp array_match_id) h3
      rw [osSimple, primSimple, simple, he, Option.bind_some]
      simp only [List.cons_append, List.nil_append, henv, bashHelperCall]
      rw [if_neg hneq.2.1, if_neg hneq.2.2, if_pos trivial]
      cases nc with
      | true => rfl
      | false => rfl
    | anySet vars =>
      rw [osSimple, primSimple, simple, arithmetic_sum env vars hg.1 hg.2]
      rfl
    | posCount op n =>
      rw [osSimple, primSimple, simple, arithmetic_count]
      rfl
    | posContains nc i vals =>
      have he := expandAll_cons env (realName_expand env hp ZshLex.contains_id) (expandAll_cons env (expand_position env nc i) (expandAll_quoted env vals))
      rw [osSimple, primSimple, simple, he, Option.bind_some]
      simp only [List.cons_append, List.nil_append, henv, bashHelperCall]
      rw [if_pos trivial]
      cases nc <;> simp [OSPrim.succeeds, BashPrim.succeeds, sameText, stateOf]

theorem exec_mapped {α : Type} (env : Env) (s : State) (f : α → ZshText.Simple) (b : α → Bool) {l : ShellGrammar.Level} {ts : List (ShellGrammar.Tok α)}
    {e : Expr α} (h : DenotesAt l ts e) (hs : ∀ k, .cmd k ∈ ts → simple env s (f k) = some (b k, s)) :
    exec env s (FishReads.mapExpr f e) = some (e.eval b, s) := by
  induction h with
  | pipe _ ih => exact ih hs
  | and _ _ ih1 ih2 =>
    rw [FishReads.mapExpr, exec, ih1 (fun k hk => hs k (by simp [hk])), Option.bind_some]
    simp only [Expr.eval]
    rename_i e f _ _
    cases he : e.eval b with
    | true => simp only [if_true, Bool.true_and]; exact ih2 (fun k hk => hs k (by simp [hk]))
    | false => simp
  | or _ _ ih1 ih2 =>
    rw [FishReads.mapExpr, exec, ih1 (fun k hk => hs k (by simp [hk])), Option.bind_some]
    simp only [Expr.eval]
    rename_i e f _ _
    cases he : e.eval b with
    | true => simp
    | false => simp only [Bool.false_eq_true, if_false, Bool.false_or]; exact ih2 (fun k hk => hs k (by simp [hk]))
  | cmd a => exact hs a (by simp)
  | not _ ih =>
    rw [FishReads.mapExpr, exec, ih (fun k hk => hs k (by simp [hk]))]
    rfl
  | group _ ih => exact ih (fun k hk => hs k (by simp [hk]))

end OffersLex
end CC
