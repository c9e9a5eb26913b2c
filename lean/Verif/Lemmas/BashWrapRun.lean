import Verif.Lemmas.BashWrapping
/-!
# Running the function of a program that wraps another one
-/

namespace BashWrap

open CC BashText

theorem put_vars (e : Env) (x y : Str) (v : BashText.Val) : (e.put x v).vars y = if y = x then v else e.vars y := rfl

theorem declare_vars (e : Env) (x y : Str) (v : BashText.Val) : (declare e x v).vars y = if y = x then v else e.vars y := rfl

theorem target_plain {e : Env} {x : Str} (h : ∀ y, e.vars x ≠ .ref y) : target e x = some x := by
  unfold target
  cases hx : e.vars x with
  | ref y => exact absurd hx (h y)
  | _ => rfl

theorem value_plain {e : Env} {x : Str} (h : ∀ y, e.vars x ≠ .ref y) : value e x = some (e.vars x) := by
  unfold value
  rw [target_plain h]; rfl

theorem run_local {fs : Funs} {e : Env} {x : Str} {v : Value} {w : BashText.Val} (r : List Stmt) (h : v.eval e = some w) :
    runAll fs (.local_ x v :: r) e = runAll fs r (declare e x w) := by
  show ((v.eval e).map (declare e x)).bind _ = _
  rw [h]; rfl

theorem run_set {fs : Funs} {e : Env} {x : Str} {v : Value} {w : BashText.Val} (r : List Stmt) (h : v.eval e = some w) (hx : ∀ y, e.vars x ≠ .ref y) :
    runAll fs (.set x v :: r) e = runAll fs r (e.put x w) := by
  show ((v.eval e).bind (fun v => (target e x).map (fun x => e.put x v))).bind _ = _
  rw [h, Option.bind_some, target_plain hx]; rfl

theorem run_first {fs : Funs} {e : Env} {x v : Str} (r : List Stmt) (hx : ∀ y, e.vars x ≠ .ref y) :
    runAll fs (.setFirst x v :: r) e = runAll fs r (e.put x (.array (v :: (e.vars x).elements.drop 1))) := by
  show ((target e x).map _).bind _ = _
  rw [target_plain hx]; rfl

theorem eval_copy {e : Env} {x : Str} (hx : ∀ y, e.vars x ≠ .ref y) : (Value.copy x).eval e = some (.str (e.vars x).text) := by
  show (value e x).map _ = _
  rw [value_plain hx]; rfl

theorem eval_array {e : Env} {x : Str} (hx : ∀ y, e.vars x ≠ .ref y) : (Value.arrays [x]).eval e = some (.array (e.vars x).elements) := by
  show (allSome [value e x]).map _ = _
  rw [value_plain hx]
  show some (BashText.Val.array ([e.vars x].flatMap BashText.Val.elements)) = _
  simp

theorem eval_arrays {e : Env} {x z : Str} (hx : ∀ y, e.vars x ≠ .ref y) (hz : ∀ y, e.vars z ≠ .ref y) :
    (Value.arrays [x, z]).eval e = some (.array ((e.vars x).elements ++ (e.vars z).elements)) := by
  show (allSome [value e x, value e z]).map _ = _
  rw [value_plain hx, value_plain hz]
  show some (BashText.Val.array ([e.vars x, e.vars z].flatMap BashText.Val.elements)) = _
  simp

/-! ## Pattern substitution -/

open Classical in
theorem longest_self {L : Str → Prop} {p : Str} (hL : ∀ w, L w ↔ w = p) (rest : Str) : longest L (p ++ rest) = some p.length := by
  unfold longest
  have hf : ∀ n, n ≤ (p ++ rest).length → (decide (L ((p ++ rest).take n)) = true ↔ n = p.length) := by
    intro n hn
    rw [decide_eq_true_iff, hL]
    constructor
    · intro h
      have := congrArg List.length h
      rw [List.length_take] at this
      omega
    · rintro rfl
      simp
  rw [List.find?_eq_some_iff_append]
  refine ⟨(hf _ (by simp)).mpr rfl, ?_⟩
  refine ⟨((List.range ((p ++ rest).length + 1)).drop (p.length + 1)).reverse, (List.range p.length).reverse, ?_, ?_⟩
  · rw [show p.length :: (List.range p.length).reverse = (List.range (p.length + 1)).reverse from by simp [List.range_succ]]
    rw [← List.reverse_append]
    congr 1
    rw [List.range_eq_range', List.range_eq_range', List.drop_range', Nat.mul_one, List.range'_append_1]
    congr 1
    simp
    omega
  · intro n hn
    have h1 : n ∈ (List.range ((p ++ rest).length + 1)).drop (p.length + 1) := List.mem_reverse.mp hn
    rw [List.range_eq_range', List.drop_range', List.mem_range'_1] at h1
    cases hd : decide (L ((p ++ rest).take n)) with
    | false => rfl
    | true =>
      have := (hf n (by omega)).mp hd
      omega

theorem replace_front {L : Str → Prop} {p : Str} (hL : ∀ w, L w ↔ w = p) (hne : p ≠ []) (r rest : Str) : replaceFirst L r (p ++ rest) = r ++ rest := by
  have h := longest_self hL rest
  cases p with
  | nil => exact absurd rfl hne
  | cons c p =>
    show (match longest L (c :: p ++ rest) with | some n => r ++ (c :: p ++ rest).drop n | none => _) = _
    rw [h]
    simp

theorem substitute_front {cmd wraps : Str} (hc : OrdinaryCommand cmd) (hw : OrdinaryWrapped wraps) (rest : Str) :
    substitute cmd wraps (cmd ++ rest) = some (wraps ++ rest) := by
  obtain ⟨hne, h1, h2⟩ := hc
  unfold substitute
  rw [if_neg]
  · obtain ⟨alts, ha, hl⟩ := means_lits hne (fun c hc => PlainChar.lit (h2 c hc))
    rw [ha]
    show some (replaceFirst _ wraps (cmd ++ rest)) = _
    rw [replace_front hl hne]
  · rintro (h | h | h | h | h | h)
    · exact hne h
    · have := List.mem_of_mem_head? h
      exact (h2 _ this).2 (by decide)
    · exact h1 h
    · obtain ⟨c, hc, hm⟩ := h
      have := (h2 c hc).2
      apply this
      have : ∀ d ∈ "'\"\\|".toList, d ∈ S "\\'\"[]()|?*$`&;<>#~ \t\n" := by decide
      exact this c hm
    · exact hw.2.1 h
    · exact hw.2.2 h

end BashWrap
