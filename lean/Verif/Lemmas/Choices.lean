import Verif.Model.Choices
import Verif.Spec.ChoicesSpec
import Verif.Props.StrUtils
import Verif.Props.FishQuoting
/-!
# Lemmas about lists of choices
-/

namespace CC

/-! ## Indented and wrapped lists -/

theorem indent_line (w s : Str) (n : Nat) (h : '\n' ∉ w) (ht : stripTruthy w = true) :
    indent (w ++ '\n' :: s) n = List.replicate n ' ' ++ w ++ '\n' :: indent s n := by
  unfold indent
  rw [splitOn_append _ _ _ h]
  have := splitOn_ne_nil '\n' s
  cases hs : splitOn '\n' s with
  | nil => exact absurd hs this
  | cons a r => simp [ht, joinWith]

theorem indent_last (w : Str) (n : Nat) (h : '\n' ∉ w) (ht : stripTruthy w = true) :
    indent w n = List.replicate n ' ' ++ w := by
  unfold indent
  rw [splitOn_single _ _ h]
  simp [ht, joinWith]

theorem stripTruthy_append_left {a b : Str} (h : stripTruthy a = true) : stripTruthy (a ++ b) = true := by
  rw [stripTruthy_iff] at h ⊢
  obtain ⟨c, hc, hs⟩ := h
  exact ⟨c, List.mem_append_left _ hc, hs⟩

/-- Indenting lines that are joined by a continuation and a newline. -/
theorem indent_join (p : Str) (lines : List Str) (n : Nat) (hp : '\n' ∉ p) (hne : lines ≠ [])
    (h : ∀ l ∈ lines, '\n' ∉ l ∧ stripTruthy l = true) :
    indent (joinWith (p ++ ['\n']) lines) n = joinWith (p ++ ['\n']) (lines.map (List.replicate n ' ' ++ ·)) := by
  induction lines with
  | nil => exact absurd rfl hne
  | cons l ls ih =>
    have hl := h l (by simp)
    cases ls with
    | nil => simp [joinWith, indent_last _ _ hl.1 hl.2]
    | cons m ms =>
      have ih' := ih (by simp) (fun x hx => h x (by simp [hx]))
      simp only [joinWith, List.map_cons] at ih' ⊢
      have e : l ++ (p ++ ['\n']) ++ joinWith (p ++ ['\n']) (m :: ms) =
          (l ++ p) ++ '\n' :: joinWith (p ++ ['\n']) (m :: ms) := by simp
      rw [e, indent_line _ _ _ (by simp [hl.1, hp]) (stripTruthy_append_left hl.2), ih']
      simp

theorem isSafe_not_space {c : Char} (h : isSafeChar c = true) : pyIsSpace c = false := by
  cases hs : pyIsSpace c with
  | false => rfl
  | true =>
    exfalso
    simp only [isSafeChar, isAsciiAlnum, Char.isAlphanum, Char.isAlpha, Char.isUpper, Char.isLower, Char.isDigit,
      Bool.or_eq_true, beq_iff_eq, Bool.and_eq_true, decide_eq_true_eq, UInt32.le_iff_toNat_le] at h
    simp only [pyIsSpace, Bool.or_eq_true, Bool.and_eq_true, decide_eq_true_eq, beq_iff_eq] at hs
    have e : c.val.toNat = c.toNat := rfl
    rw [e] at h
    rcases h with ((((((((((((h|h)|h)|h)|h)|h)|h)|h)|h)|h)|h)|h)|h)
    all_goals first
      | (subst h; revert hs; decide)
      | (have h1 := h.1; have h2 := h.2; simp at h1 h2; omega)

theorem quote_nonblank (s : Str) : stripTruthy (quote s) = true := by
  rw [stripTruthy_iff]
  unfold quote
  simp only [Bool.not_true, Bool.and_false, Bool.false_eq_true, if_false]
  split
  · rename_i h
    have := needsQuote_false (by simpa using h)
    cases s with
    | nil => exact absurd rfl this.1
    | cons c cs => exact ⟨c, by simp, isSafe_not_space (this.2 c (by simp))⟩
  · split
    · exact ⟨'\'', by simp, by decide⟩
    · split
      · exact ⟨'"', by simp, by decide⟩
      · exact ⟨'\'', by simp, by decide⟩

theorem quote_no_newline {s : Str} (h : '\n' ∉ s) : '\n' ∉ quote s := by
  unfold quote
  simp only [Bool.not_true, Bool.and_false, Bool.false_eq_true, if_false]
  split
  · exact h
  · split
    · simp [h]
    · split
      · intro hm
        simp only [List.cons_append, List.nil_append, List.mem_cons, List.mem_append, List.not_mem_nil, or_false] at hm
        rcases hm with hm | hm | hm
        · cases hm
        · unfold escapeDouble at hm
          rcases mem_replaceChar hm with hm | hm
          · rcases mem_replaceChar hm with hm | hm
            · rcases mem_replaceChar hm with hm | hm
              · exact h hm
              · simp at hm
            · simp at hm
          · simp at hm
        · cases hm
      · intro hm
        simp only [List.cons_append, List.nil_append, List.mem_cons, List.mem_append, List.not_mem_nil, or_false] at hm
        rcases hm with hm | hm | hm
        · cases hm
        · rcases mem_replaceChar hm with hm | hm
          · exact h hm
          · simp at hm
        · cases hm

theorem mem_joinWith {c : Char} {sep : Str} {ws : List Str} (h : c ∈ joinWith sep ws) :
    c ∈ sep ∨ ∃ w ∈ ws, c ∈ w := by
  induction ws with
  | nil => simp [joinWith] at h
  | cons w ws ih =>
    cases ws with
    | nil => simp only [joinWith] at h; exact Or.inr ⟨w, by simp, h⟩
    | cons y ys =>
      simp only [joinWith, List.mem_append] at h
      rcases h with (h | h) | h
      · exact Or.inr ⟨w, by simp, h⟩
      · exact Or.inl h
      · rcases ih h with h | ⟨x, hx, hc⟩
        · exact Or.inl h
        · exact Or.inr ⟨x, by simp [hx], hc⟩

theorem joinWith_truthy {sep : Str} {ws : List Str} (hne : ws ≠ []) (h : ∀ w ∈ ws, stripTruthy w = true) :
    stripTruthy (joinWith sep ws) = true := by
  cases ws with
  | nil => exact absurd rfl hne
  | cons w ws =>
    cases ws with
    | nil => simpa [joinWith] using h w (by simp)
    | cons y ys =>
      simp only [joinWith, List.append_assoc]
      exact stripTruthy_append_left (h w (by simp))

/-- Quoted items, wrapped and indented: the items stand on lines, each indented. -/
theorem wrapped_quoted (p : Str) (hp : '\n' ∉ p) (max : Int) (items : List Str) (hn : ∀ i ∈ items, '\n' ∉ i) :
    ∃ lines : List (List Str), lines.flatten = items ∧ (∀ l ∈ lines, l ≠ []) ∧
      indent (joinWithWrap [' '] (p ++ ['\n']) max (items.map (fun i => quote i)) []) 2 =
        joinWith (p ++ ['\n']) (lines.map (fun l => [' ', ' '] ++ joinQuoted l)) := by
  obtain ⟨qlines, hq, he⟩ := C38_join_with_wrap [' '] (p ++ ['\n']) [] max (items.map (fun i => quote i))
  -- the lines come from lines of items
  have split : ∀ (ql : List (List Str)) (is : List Str), ql.flatten = is.map (fun i => quote i) →
      ∃ lines : List (List Str), lines.flatten = is ∧ lines.map (fun l => l.map (fun i => quote i)) = ql := by
    intro ql
    induction ql with
    | nil => intro is h; simp at h; exact ⟨[], by simp [h], by simp⟩
    | cons q qs ih =>
      intro is h
      simp only [List.flatten_cons] at h
      obtain ⟨a, b, rfl, ha, hb⟩ := List.map_eq_append_iff.mp h.symm
      obtain ⟨lines, h1, h2⟩ := ih b hb.symm
      exact ⟨a :: lines, by simp [h1], by simp [ha, h2]⟩
  obtain ⟨lines, h1, h2⟩ := split qlines items hq.complete
  refine ⟨lines, h1, ?_, ?_⟩
  · intro l hl hnil
    subst hnil
    exact hq.nonempty [] (by rw [← h2]; exact List.mem_map.mpr ⟨[], hl, rfl⟩) rfl
  · rw [he]
    cases hl : lines with
    | nil =>
      subst hl
      simp only [List.map_nil] at h2
      subst h2
      simp [joinWith]; decide
    | cons l0 ls0 =>
      have hsub : ∀ l ∈ lines, ∀ i ∈ l, i ∈ items := by
        intro l hl i hi
        rw [← h1]; exact List.mem_flatten.mpr ⟨l, hl, hi⟩
      have hne : ∀ l ∈ lines, l ≠ [] := by
        intro l hl hnil
        subst hnil
        exact hq.nonempty [] (by rw [← h2]; exact List.mem_map.mpr ⟨[], hl, rfl⟩) rfl
      rw [← hl, ← h2, indent_join p _ 2 hp (by simp [hl])]
      · rw [List.map_map, List.map_map]
        congr 1
      · intro t ht
        rw [List.map_map] at ht
        obtain ⟨l, hlm, rfl⟩ := List.mem_map.mp ht
        simp only [Function.comp_apply, List.nil_append]
        constructor
        · intro hm
          rcases mem_joinWith hm with hm | ⟨w, hw, hc⟩
          · simp at hm
          · obtain ⟨i, hi, rfl⟩ := List.mem_map.mp hw
            exact quote_no_newline (hn i (hsub l hlm i hi)) hc
        · refine joinWith_truthy (by simpa using hne l hlm) ?_
          intro w hw
          obtain ⟨i, hi, rfl⟩ := List.mem_map.mp hw
          exact quote_nonblank i

/-! ## Reading the lists -/

/-- POSIX shells read a line of quoted items and go on behind the newline. -/
theorem read_line (l : List Str) (t : Str) :
    Posix.read .gap [] (joinQuoted l ++ '\n' :: t) = (Posix.read .gap [] t).map (l ++ ·) := by
  unfold joinQuoted
  match l with
  | [] => simp [joinWith, Posix.read, Posix.blank]
  | [x] =>
    simp only [List.map_cons, List.map_nil, joinWith]
    rw [read_quote_gap]
    simp [Posix.read, Posix.blank]
  | x :: y :: xs =>
    have ih := read_line (y :: xs) t
    unfold joinQuoted at ih
    simp only [List.map_cons, joinWith, List.append_assoc, List.cons_append, List.nil_append] at ih ⊢
    rw [read_quote_gap]
    simp only [Posix.read, Posix.blank]
    simp only [beq_self_eq_true, Bool.true_or, if_true, ih, Option.map_map]
    congr 1

theorem read_lines (lines : List (List Str)) (t : Str) :
    Posix.read .gap [] (joinWith ['\n'] (lines.map (fun l => [' ', ' '] ++ joinQuoted l)) ++ '\n' :: t) =
      (Posix.read .gap [] t).map (lines.flatten ++ ·) := by
  induction lines with
  | nil => simp [joinWith, Posix.read, Posix.blank]
  | cons l ls ih =>
    cases ls with
    | nil =>
      simp only [List.map_cons, List.map_nil, joinWith, List.cons_append, List.nil_append, Posix.read, Posix.blank,
        beq_self_eq_true, Bool.true_or, if_true, read_line]
      simp
    | cons m ms =>
      simp only [List.map_cons, joinWith, List.cons_append, List.nil_append, List.append_assoc] at ih ⊢
      simp only [Posix.read, Posix.blank, beq_self_eq_true, Bool.true_or, if_true] at ih ⊢
      rw [read_line, ih]
      simp [Option.map_map, Function.comp_def]

/-- Fish reads a line of quoted items that ends in a continuation and goes on in the next line. -/
theorem fish_line (l : List Str) (t : Str) (hne : l ≠ []) (h : ∀ a ∈ l, fishReadable a = true) :
    Fish.read .gap [] (joinQuoted l ++ ' ' :: '\\' :: '\n' :: t) = (Fish.read .gap [] t).map (l ++ ·) := by
  unfold joinQuoted
  match l with
  | [] => exact absurd rfl hne
  | [x] =>
    simp only [List.map_cons, List.map_nil, joinWith]
    rw [C03_fish_quote_in_context_partial _ _ (h x (by simp))]
    simp [Fish.read, Fish.blank]
  | x :: y :: xs =>
    have ih := fish_line (y :: xs) t (by simp) (fun a ha => h a (by simp [ha]))
    unfold joinQuoted at ih
    simp only [List.map_cons, joinWith, List.append_assoc, List.cons_append, List.nil_append] at ih ⊢
    rw [C03_fish_quote_in_context_partial _ _ (h x (by simp))]
    have e : ∀ u, Fish.read .word x (' ' :: u) = (Fish.read .gap [] u).map (x :: ·) := by
      intro u; simp [Fish.read, Fish.blank]
    rw [e, ih, Option.map_map]
    congr 1

theorem fish_lines (lines : List (List Str)) (hne : ∀ l ∈ lines, l ≠ [])
    (h : ∀ l ∈ lines, ∀ a ∈ l, fishReadable a = true) :
    Fish.read .gap [] (joinWith [' ', '\\', '\n'] (lines.map (fun l => [' ', ' '] ++ joinQuoted l))) =
      some lines.flatten := by
  induction lines with
  | nil => simp [joinWith, Fish.read]
  | cons l ls ih =>
    have hl := h l (by simp)
    cases ls with
    | nil =>
      have := C03_fish_join_quoted_partial l hl
      unfold Fish.words at this
      simp only [List.map_cons, List.map_nil, joinWith, List.cons_append, List.nil_append]
      simp [Fish.read, Fish.blank, this]
    | cons m ms =>
      have ih' := ih (fun x hx => hne x (by simp [hx])) (fun x hx => h x (by simp [hx]))
      have hr := fish_line l (joinWith [' ', '\\', '\n'] ((m :: ms).map (fun l => [' ', ' '] ++ joinQuoted l)))
        (hne l (by simp)) hl
      rw [ih'] at hr
      simp only [List.map_cons, joinWith, List.cons_append, List.nil_append, List.append_assoc] at hr ⊢
      simp only [Fish.read, Fish.blank, beq_self_eq_true, Bool.true_or, if_true, hr]
      simp

end CC
