import Verif.Model.StrUtils
/-!
# C37, C38, C39, C55: text utilities
-/

namespace CC

/-! ## Splitting and joining -/

theorem splitOn_ne_nil (c : Char) (s : Str) : splitOn c s ≠ [] := by
  cases s with
  | nil => simp [splitOn]
  | cons x xs =>
    simp only [splitOn]
    split
    · simp
    · split <;> simp

theorem splitOn_no_sep (c : Char) (s : Str) : ∀ w ∈ splitOn c s, c ∉ w := by
  induction s with
  | nil => simp [splitOn]
  | cons x xs ih =>
    intro w hw
    simp only [splitOn] at hw
    split at hw
    · simp at hw
      rcases hw with rfl | hw
      · simp
      · exact ih w hw
    · rename_i hx
      split at hw
      · simp at hw; subst hw; simp; exact fun h => hx h.symm
      · rename_i w0 ws heq
        simp at hw
        rcases hw with rfl | hw
        · have := ih w0 (by rw [heq]; simp)
          simp only [List.mem_cons, not_or]
          exact ⟨fun h => hx h.symm, this⟩
        · exact ih w (by rw [heq]; simp [hw])

theorem splitOn_append (c : Char) (w s : Str) (h : c ∉ w) :
    splitOn c (w ++ c :: s) = w :: splitOn c s := by
  induction w with
  | nil => simp [splitOn]
  | cons x xs ih =>
    simp only [List.mem_cons, not_or] at h
    simp only [List.cons_append, splitOn, ih h.2]
    simp [Ne.symm h.1]

theorem splitOn_single (c : Char) (w : Str) (h : c ∉ w) : splitOn c w = [w] := by
  induction w with
  | nil => rfl
  | cons x xs ih =>
    simp only [List.mem_cons, not_or] at h
    simp only [splitOn, ih h.2]
    simp [Ne.symm h.1]

/-- Splitting undoes joining when no piece contains the separator. -/
theorem splitOn_join (c : Char) (ws : List Str) (hne : ws ≠ []) (h : ∀ w ∈ ws, c ∉ w) :
    splitOn c (joinWith [c] ws) = ws := by
  match ws with
  | [] => exact absurd rfl hne
  | [w] => simp only [joinWith]; exact splitOn_single c w (h w (by simp))
  | w :: v :: vs =>
    simp only [joinWith, List.append_assoc, List.cons_append, List.nil_append]
    rw [splitOn_append c w _ (h w (by simp)), splitOn_join c (v :: vs) (by simp)
      (fun x hx => h x (by simp [hx]))]

/-- Joining undoes splitting. -/
theorem join_splitOn (c : Char) (s : Str) : joinWith [c] (splitOn c s) = s := by
  induction s with
  | nil => rfl
  | cons x xs ih =>
    simp only [splitOn]
    have hne := splitOn_ne_nil c xs
    split
    · rename_i hx
      subst hx
      cases hsp : splitOn x xs with
      | nil => exact absurd hsp hne
      | cons w ws => rw [hsp] at ih; simp [joinWith, ih]
    · cases hsp : splitOn c xs with
      | nil => exact absurd hsp hne
      | cons w ws =>
        rw [hsp] at ih
        cases ws with
        | nil => simp [joinWith] at ih ⊢; exact ih
        | cons v vs => simp [joinWith] at ih ⊢; exact ih

theorem lstrip_nil_iff (s : Str) : lstrip s = [] ↔ ∀ c ∈ s, pyIsSpace c = true := by
  induction s with
  | nil => simp [lstrip]
  | cons x xs ih =>
    simp only [lstrip]
    split
    · rename_i h; rw [ih]; simp [h]
    · rename_i h; simp [h]

theorem lstrip_suffix (s : Str) : ∃ p, s = p ++ lstrip s ∧ ∀ c ∈ p, pyIsSpace c = true := by
  induction s with
  | nil => exact ⟨[], rfl, by simp⟩
  | cons x xs ih =>
    simp only [lstrip]
    split
    · rename_i h
      obtain ⟨p, hp, hs⟩ := ih
      exact ⟨x :: p, by simp [← hp], by intro c hc; simp at hc; rcases hc with rfl | hc; exact h; exact hs c hc⟩
    · exact ⟨[], rfl, by simp⟩

/-- `line.strip()` is empty iff the line has only blanks. -/
theorem stripTruthy_iff (s : Str) : stripTruthy s = true ↔ ∃ c ∈ s, pyIsSpace c = false := by
  have h : (strip s).isEmpty = true ↔ ∀ c ∈ s, pyIsSpace c = true := by
    simp only [strip, rstrip, List.isEmpty_iff, List.reverse_eq_nil_iff]
    rw [lstrip_nil_iff]
    simp only [List.mem_reverse]
    obtain ⟨p, hp, hs⟩ := lstrip_suffix s
    constructor
    · intro h c hc
      rw [hp, List.mem_append] at hc
      rcases hc with hc | hc
      · exact hs c hc
      · exact h c hc
    · intro h c hc
      apply h; rw [hp]; simp [hc]
  rw [stripTruthy, Bool.not_eq_true', ← Bool.not_eq_true, h]
  simp

/-! ## C37 -/

/-- **C37**: line by line, `indent` leaves lines of blanks unchanged and puts exactly `n` spaces
before every other line; the number of lines stays the same. -/
theorem C37_indent_lines (s : Str) (n : Nat) :
    (splitOn '\n' (indent s n)).length = (splitOn '\n' s).length ∧
    ∀ (i : Nat) (line : Str), (splitOn '\n' s)[i]? = some line →
      (splitOn '\n' (indent s n))[i]? =
        some (if ∀ c ∈ line, pyIsSpace c = true then line else List.replicate n ' ' ++ line) := by
  have key : splitOn '\n' (indent s n) = (splitOn '\n' s).map (fun line =>
      if stripTruthy line then List.replicate n ' ' ++ line else line) := by
    unfold indent
    apply splitOn_join
    · simpa using splitOn_ne_nil '\n' s
    · intro w hw
      simp only [List.mem_map] at hw
      obtain ⟨l, hl, rfl⟩ := hw
      have := splitOn_no_sep '\n' s l hl
      split
      · simp only [List.mem_append, List.mem_replicate, not_or]
        exact ⟨by simp, this⟩
      · exact this
  refine ⟨by rw [key]; simp, ?_⟩
  intro i line h
  rw [key, List.getElem?_map, h]
  simp only [Option.map_some, Option.some.injEq]
  by_cases hb : ∀ c ∈ line, pyIsSpace c = true
  · have : stripTruthy line = false := by
      rw [← Bool.not_eq_true, stripTruthy_iff]
      rintro ⟨c, hc, hs⟩; rw [hb c hc] at hs; cases hs
    rw [this, if_pos hb]; rfl
  · have : stripTruthy line = true := by
      rw [stripTruthy_iff]
      simpa using hb
    rw [this, if_neg hb]; rfl

/-- **C37**: indentations add up. -/
theorem C37_indent_indent (s : Str) (a b : Nat) : indent (indent s a) b = indent s (a + b) := by
  have key : splitOn '\n' (indent s a) = (splitOn '\n' s).map (fun line =>
      if stripTruthy line then List.replicate a ' ' ++ line else line) := by
    unfold indent
    apply splitOn_join
    · simpa using splitOn_ne_nil '\n' s
    · intro w hw
      simp only [List.mem_map] at hw
      obtain ⟨l, hl, rfl⟩ := hw
      have := splitOn_no_sep '\n' s l hl
      split
      · simp only [List.mem_append, List.mem_replicate, not_or]
        exact ⟨by simp, this⟩
      · exact this
  rw [indent, key, indent, List.map_map]
  congr 1
  apply List.map_congr_left
  intro line _
  simp only [Function.comp_apply]
  by_cases h : stripTruthy line = true
  · have : stripTruthy (List.replicate a ' ' ++ line) = true := by
      rw [stripTruthy_iff] at h ⊢
      obtain ⟨c, hc, hs⟩ := h
      exact ⟨c, by simp [hc], hs⟩
    simp only [h, this, if_true, ← List.append_assoc, List.replicate_append_replicate]
    rw [Nat.add_comm]
  · simp [h]

/-- Indenting by nothing changes nothing. -/
theorem C37_indent_zero (s : Str) : indent s 0 = s := by
  have h : (fun line : Str => if stripTruthy line = true then List.replicate 0 ' ' ++ line else line)
      = id := by funext l; simp
  unfold indent
  rw [h, List.map_id, join_splitOn]

example : indent (S "a\n\n  b") 2 = S "  a\n\n    b" := by decide

/-! ## C38 -/

/-- Length of a line made of `line`. -/
def lineLength (sepLen preLen : Nat) (line : List Str) : Nat :=
  preLen + (line.map List.length).sum + sepLen * (line.length - 1)

theorem lineLength_text (sep pre : Str) (line : List Str) :
    (pre ++ joinWith sep line).length = lineLength sep.length pre.length line := by
  unfold lineLength
  rw [List.length_append]
  have : (joinWith sep line).length = (line.map List.length).sum + sep.length * (line.length - 1) := by
    match line with
    | [] => simp [joinWith]
    | [x] => simp [joinWith]
    | x :: y :: r =>
      have ih := lineLength_text sep [] (y :: r)
      simp only [List.nil_append, lineLength, List.length_nil, Nat.zero_add] at ih
      simp only [joinWith, List.length_append, ih, List.map_cons, List.sum_cons, List.length_cons,
        Nat.add_sub_cancel, Nat.mul_add, Nat.mul_one]
      omega
  omega

/-- A way to break `items` into lines that is greedy: nothing lost, no empty line, lines with
several items fit, and the first item of a line would not have fitted on the line before. -/
structure GreedyLines (sepLen preLen : Nat) (max : Int) (items : List Str) (lines : List (List Str)) :
    Prop where
  complete : lines.flatten = items
  nonempty : ∀ l ∈ lines, l ≠ []
  fits : ∀ l ∈ lines, 1 < l.length → (lineLength sepLen preLen l : Int) ≤ max
  needed : ∀ a b pre post, lines = pre ++ a :: b :: post → ∀ x, b.head? = some x →
    (lineLength sepLen preLen (a ++ [x]) : Int) > max

theorem lineLength_snoc (sepLen preLen : Nat) (cur : List Str) (item : Str) :
    lineLength sepLen preLen (cur ++ [item]) =
      lineLength sepLen preLen cur + (if cur.isEmpty = true then 0 else sepLen) + item.length := by
  unfold lineLength
  cases cur with
  | nil => simp
  | cons c cs =>
    simp only [List.cons_append, List.map_cons, List.map_append, List.map_nil, List.sum_cons,
      List.sum_append, List.sum_nil, List.length_cons, List.length_append, List.length_nil,
      List.isEmpty_cons, Bool.false_eq_true, if_false, Nat.add_sub_cancel]
    have : cs.length + (0 + 1) = cs.length + 1 := by omega
    rw [this, Nat.mul_add]; omega

theorem wrapGo_greedy (sepLen preLen : Nat) (max : Int) (items : List Str) :
    ∀ (cur : List Str), (1 < cur.length → (lineLength sepLen preLen cur : Int) ≤ max) →
    GreedyLines sepLen preLen max (cur ++ items)
      (wrapGo sepLen preLen max cur (lineLength sepLen preLen cur) items) ∧
    (cur ≠ [] → ∃ l rest, wrapGo sepLen preLen max cur (lineLength sepLen preLen cur) items = l :: rest ∧
      cur.head? = l.head?) := by
  induction items with
  | nil =>
    intro cur hc
    simp only [wrapGo]
    cases cur with
    | nil =>
      refine ⟨⟨by simp, by simp, by simp, ?_⟩, by simp⟩
      intro a b pre post h; simp at h
    | cons c cs =>
      refine ⟨⟨by simp, by simp, ?_, ?_⟩, ?_⟩
      · intro l hl; simp at hl; subst hl; exact hc
      · intro a b pre post h
        have := congrArg List.length h
        simp at this
        omega
      · intro _; exact ⟨_, _, rfl, rfl⟩
  | cons item items ih =>
    intro cur hc
    simp only [wrapGo]
    by_cases hb : (!cur.isEmpty && decide ((((lineLength sepLen preLen cur +
        (if cur.isEmpty = true then 0 else sepLen) + item.length : Nat)) : Int) > max)) = true
    · rw [if_pos hb]
      simp only [Bool.and_eq_true, Bool.not_eq_true', List.isEmpty_eq_false_iff, decide_eq_true_eq] at hb
      obtain ⟨hne, hgt⟩ := hb
      have hne' : cur.isEmpty = false := by simpa using hne
      have e1 : preLen + item.length = lineLength sepLen preLen [item] := by simp [lineLength]
      rw [e1]
      obtain ⟨hg, hl⟩ := ih [item] (by simp)
      obtain ⟨l, rest, hw, hhead⟩ := hl (by simp)
      refine ⟨⟨?_, ?_, ?_, ?_⟩, ?_⟩
      · rw [List.flatten_cons, hg.complete]; simp
      · intro l' hl'
        simp at hl'
        rcases hl' with rfl | hl'
        · exact hne
        · exact hg.nonempty l' hl'
      · intro l' hl'
        simp at hl'
        rcases hl' with rfl | hl'
        · exact hc
        · exact hg.fits l' hl'
      · intro a b pre post h x hx
        cases pre with
        | nil =>
          simp only [List.nil_append, List.cons.injEq] at h
          obtain ⟨rfl, h⟩ := h
          rw [hw] at h
          simp only [List.cons.injEq] at h
          obtain ⟨rfl, h⟩ := h
          rw [← hhead] at hx
          simp at hx
          subst hx
          rw [lineLength_snoc]
          exact hgt
        | cons p ps =>
          simp only [List.cons_append, List.cons.injEq] at h
          exact hg.needed a b ps post h.2 x hx
      · intro _; exact ⟨_, _, rfl, rfl⟩
    · rw [if_neg hb]
      have e : lineLength sepLen preLen cur + (if cur.isEmpty = true then 0 else sepLen) + item.length
          = lineLength sepLen preLen (cur ++ [item]) := (lineLength_snoc _ _ _ _).symm
      rw [e]
      have hc' : 1 < (cur ++ [item]).length → (lineLength sepLen preLen (cur ++ [item]) : Int) ≤ max := by
        intro hlen
        have hne : cur.isEmpty = false := by cases cur <;> simp_all
        rw [lineLength_snoc]
        simp only [hne, Bool.not_false, Bool.true_and, decide_eq_true_eq] at hb ⊢
        omega
      obtain ⟨hg, hl⟩ := ih (cur ++ [item]) hc'
      refine ⟨by simpa using hg, ?_⟩
      intro hne
      obtain ⟨l, rest, hw, hhead⟩ := hl (by simp)
      refine ⟨l, rest, hw, ?_⟩
      rw [← hhead]
      cases cur <;> simp_all

/-- **C38**: the text is a greedy arrangement of the items into lines, each with the prefix. -/
theorem C38_join_with_wrap (sep sep2 pre : Str) (max : Int) (items : List Str) :
    ∃ lines, GreedyLines sep.length pre.length max items lines ∧
      joinWithWrap sep sep2 max items pre =
        joinWith sep2 (lines.map (fun line => pre ++ joinWith sep line)) := by
  refine ⟨_, ?_, rfl⟩
  have := (wrapGo_greedy sep.length pre.length max items [] (by simp)).1
  simpa [lineLength] using this

/-- **C38**: in terms of the text of the lines. -/
theorem C38_line_lengths (sep sep2 pre : Str) (max : Int) (items : List Str) :
    ∃ lines : List (List Str), lines.flatten = items ∧ (∀ l ∈ lines, l ≠ []) ∧
      (∀ l ∈ lines, 1 < l.length → ((pre ++ joinWith sep l).length : Int) ≤ max) ∧
      (∀ a b p q, lines = p ++ a :: b :: q → ∀ x, b.head? = some x →
        ((pre ++ joinWith sep (a ++ [x])).length : Int) > max) ∧
      joinWithWrap sep sep2 max items pre =
        joinWith sep2 (lines.map (fun line => pre ++ joinWith sep line)) := by
  obtain ⟨lines, hg, ht⟩ := C38_join_with_wrap sep sep2 pre max items
  refine ⟨lines, hg.complete, hg.nonempty, ?_, ?_, ht⟩
  · intro l hl h; rw [lineLength_text]; exact hg.fits l hl h
  · intro a b p q h x hx; rw [lineLength_text]; exact hg.needed a b p q h x hx

example : joinWithWrap (S ", ") (S "\n") 8 [S "aa", S "bb", S "cccccccccc", S "d"] (S "> ") =
    S "> aa, bb\n> cccccccccc\n> d" := by decide

/-! ## C39 -/

/-- A comment line: blanks, then `#`. -/
def IsComment (line : Str) : Prop := ∃ p r, line = p ++ '#' :: r ∧ ∀ c ∈ p, pyIsSpace c = true

theorem isCommentLine_iff (line : Str) : isCommentLine line = true ↔ IsComment line := by
  induction line with
  | nil => simp [isCommentLine, lstrip, startsWith, IsComment]
  | cons c cs ih =>
    by_cases hs : pyIsSpace c = true
    · have : isCommentLine (c :: cs) = isCommentLine cs := by simp [isCommentLine, lstrip, hs]
      rw [this, ih]
      constructor
      · rintro ⟨p, r, rfl, hp⟩
        exact ⟨c :: p, r, rfl, by intro d hd; simp at hd; rcases hd with rfl | hd; exact hs; exact hp d hd⟩
      · rintro ⟨p, r, h, hp⟩
        cases p with
        | nil =>
          simp at h
          rw [h.1] at hs; exact absurd hs (by decide)
        | cons d ds =>
          simp at h
          exact ⟨ds, r, h.2, fun x hx => hp x (by simp [hx])⟩
    · have : isCommentLine (c :: cs) = (c == '#') := by
        simp [isCommentLine, lstrip, hs, startsWith]
      rw [this, beq_iff_eq]
      constructor
      · rintro rfl; exact ⟨[], cs, rfl, by simp⟩
      · rintro ⟨p, r, h, hp⟩
        cases p with
        | nil => simp at h; exact h.1
        | cons d ds => simp at h; rw [h.1] at hs; exact absurd (hp d (by simp)) hs

open Classical in
/-- **C39**: exactly the lines that are not comments remain, in order (if none remains, the text
is empty). -/
theorem C39_strip_comments (s : Str) :
    stripComments s = joinWith ['\n'] ((splitOn '\n' s).filter (fun l => decide (¬ IsComment l))) ∧
    ((∃ l ∈ splitOn '\n' s, ¬ IsComment l) →
      splitOn '\n' (stripComments s) = (splitOn '\n' s).filter (fun l => decide (¬ IsComment l))) ∧
    ((∀ l ∈ splitOn '\n' s, IsComment l) → stripComments s = []) := by
  have e : (splitOn '\n' s).filter (fun line => !isCommentLine line) =
      (splitOn '\n' s).filter (fun l => decide (¬ IsComment l)) := by
    apply List.filter_congr
    intro l _
    rw [Bool.eq_iff_iff]
    simp [← isCommentLine_iff]
  have e1 : stripComments s = joinWith ['\n'] ((splitOn '\n' s).filter
      (fun l => decide (¬ IsComment l))) := by rw [stripComments, e]
  refine ⟨e1, ?_, ?_⟩
  · rintro ⟨l, hl, hc⟩
    rw [e1]
    apply splitOn_join
    · intro h
      rw [List.filter_eq_nil_iff] at h
      exact h l hl (by simpa using hc)
    · intro w hw
      exact splitOn_no_sep '\n' s w ((List.mem_filter.mp hw).1)
  · intro h
    have : (splitOn '\n' s).filter (fun l => decide (¬ IsComment l)) = [] := by
      rw [List.filter_eq_nil_iff]
      intro l hl; simpa using h l hl
    rw [e1, this]; rfl

/-- **C39**: stripping comments twice is the same as once. -/
theorem C39_strip_comments_idempotent (s : Str) :
    stripComments (stripComments s) = stripComments s := by
  by_cases h : (splitOn '\n' s).filter (fun line => !isCommentLine line) = []
  · have : stripComments s = [] := by rw [stripComments, h]; rfl
    rw [this]; rfl
  · have e : splitOn '\n' (stripComments s) =
        (splitOn '\n' s).filter (fun line => !isCommentLine line) := by
      unfold stripComments
      apply splitOn_join _ _ h
      intro w hw
      exact splitOn_no_sep '\n' s w ((List.mem_filter.mp hw).1)
    rw [stripComments, e, List.filter_filter]
    simp [stripComments]

/-- The non-empty lines of a text. -/
def nonEmptyLines (s : Str) : List Str := (splitOn '\n' s).filter (fun l => !l.isEmpty)

theorem splitOn_cons_nl (s : Str) : splitOn '\n' ('\n' :: s) = [] :: splitOn '\n' s := by
  simp [splitOn]

theorem nonEmptyLines_nl (s : Str) : nonEmptyLines ('\n' :: s) = nonEmptyLines s := by
  simp [nonEmptyLines, splitOn_cons_nl]

theorem sdel_splitOn (s : Str) :
    (splitOn '\n' (stripDoubleEmptyLines s)).head? = (splitOn '\n' s).head? ∧
    nonEmptyLines (stripDoubleEmptyLines s) = nonEmptyLines s := by
  match s with
  | [] => exact ⟨rfl, rfl⟩
  | [a] => exact ⟨rfl, rfl⟩
  | [a, b] => exact ⟨rfl, rfl⟩
  | a :: b :: c :: r =>
    simp only [stripDoubleEmptyLines]
    split
    · rename_i h
      obtain ⟨rfl, rfl, rfl⟩ := h
      have ih := sdel_splitOn r
      refine ⟨by simp [splitOn_cons_nl], ?_⟩
      simp only [nonEmptyLines_nl]
      exact ih.2
    · have ih := sdel_splitOn (b :: c :: r)
      by_cases ha : a = '\n'
      · subst ha
        refine ⟨by simp [splitOn_cons_nl], ?_⟩
        simp only [nonEmptyLines_nl] at ih ⊢
        exact ih.2
      · have key : ∀ t : Str, ∃ w ws, splitOn '\n' t = w :: ws ∧ splitOn '\n' (a :: t) = (a :: w) :: ws := by
          intro t
          cases h : splitOn '\n' t with
          | nil => exact absurd h (splitOn_ne_nil _ _)
          | cons w ws => exact ⟨w, ws, rfl, by simp only [splitOn, ha, if_false, h]⟩
        obtain ⟨w, ws, h1, h2⟩ := key (stripDoubleEmptyLines (b :: c :: r))
        obtain ⟨v, vs, h3, h4⟩ := key (b :: c :: r)
        have hw : w = v := by
          have := ih.1
          rw [h1, h3] at this
          simpa using this
        subst hw
        refine ⟨by rw [h2, h4]; rfl, ?_⟩
        have h5 := ih.2
        simp only [nonEmptyLines, h1, h3, h2, h4] at h5 ⊢
        cases w <;> simp_all

/-- **C39**: collapsing empty lines keeps the sequence of non-empty lines; so it removes nothing
but newlines and never joins two of them. -/
theorem C39_strip_double_empty_lines (s : Str) :
    nonEmptyLines (stripDoubleEmptyLines s) = nonEmptyLines s ∧
    (stripDoubleEmptyLines s).filter (· != '\n') = s.filter (· != '\n') := by
  refine ⟨(sdel_splitOn s).2, ?_⟩
  have key : ∀ n (s : Str), s.length ≤ n →
      (stripDoubleEmptyLines s).filter (· != '\n') = s.filter (· != '\n') := by
    intro n
    induction n with
    | zero => intro s h; cases s <;> simp_all [stripDoubleEmptyLines]
    | succ n ih =>
      intro s h
      match s with
      | [] => rfl
      | [a] => rfl
      | [a, b] => rfl
      | a :: b :: c :: r =>
        simp only [stripDoubleEmptyLines]
        simp only [List.length_cons] at h
        split
        · rename_i hh
          obtain ⟨rfl, rfl, rfl⟩ := hh
          have := ih r (by omega)
          simpa using this
        · have := ih (b :: c :: r) (by simp; omega)
          rw [List.filter_cons, this, List.filter_cons (x := a)]
  exact key _ s (Nat.le_refl _)

/-- Collapsing is a single pass: five newlines become four, which a second pass makes three. -/
theorem C39_not_idempotent :
    stripDoubleEmptyLines (S "\n\n\n\n\n") = S "\n\n\n\n" ∧
    stripDoubleEmptyLines (S "\n\n\n\n") = S "\n\n\n" := by decide

example : nonEmptyLines (S "a\n\n\nb") = [S "a", S "b"] := by decide

/-! ## C55 -/

/-- The pieces that an operation adds to the output. -/
def OutOp.pieces : OutOp → List Str
  | .add s => [s]
  | .extend ss => ss
  | .block lines => [joinWith ['\n'] lines]

/-- **C55**: after any history the script is exactly the non-empty pieces in the order added,
separated by one empty line. -/
theorem C55_output (h : List OutOp) :
    outputGet (h.foldl OutOp.apply []) =
      joinWith ['\n', '\n'] ((h.flatMap OutOp.pieces).filter (· ≠ [])) := by
  have key : ∀ (out : List Str), h.foldl OutOp.apply out = out ++ h.flatMap OutOp.pieces := by
    induction h with
    | nil => simp
    | cons o os ih =>
      intro out
      rw [List.foldl_cons, ih, List.flatMap_cons, ← List.append_assoc]
      congr 1
      cases o <;> rfl
  rw [key, outputGet, List.nil_append]
  congr 1
  apply List.filter_congr
  intro s _
  cases s <;> simp

/-- **C55**: every non-empty piece is in the script, at a place of its own. -/
theorem C55_pieces_present (h : List OutOp) (a b : List OutOp) (o : OutOp) (hh : h = a ++ o :: b) :
    ∃ pre post, outputGet (h.foldl OutOp.apply []) =
      pre ++ joinWith ['\n', '\n'] (o.pieces.filter (· ≠ [])) ++ post := by
  have jw : ∀ (xs ys : List Str), ∃ post, joinWith ['\n', '\n'] (xs ++ ys) =
      joinWith ['\n', '\n'] xs ++ post := by
    intro xs ys
    match xs with
    | [] => exact ⟨_, rfl⟩
    | [x] => cases ys with
      | nil => exact ⟨[], by simp⟩
      | cons y ys => exact ⟨['\n', '\n'] ++ joinWith ['\n', '\n'] (y :: ys), by simp [joinWith]⟩
    | x :: y :: zs =>
      have : ∀ (xs ys : List Str), ∃ post, joinWith ['\n', '\n'] (xs ++ ys) =
          joinWith ['\n', '\n'] xs ++ post := by
        intro xs
        induction xs with
        | nil => intro ys; exact ⟨_, rfl⟩
        | cons x xs ih =>
          intro ys
          cases xs with
          | nil => cases ys with
            | nil => exact ⟨[], by simp⟩
            | cons y ys => exact ⟨['\n', '\n'] ++ joinWith ['\n', '\n'] (y :: ys), by simp [joinWith]⟩
          | cons z zs =>
            obtain ⟨post, hp⟩ := ih ys
            refine ⟨post, ?_⟩
            simp only [List.cons_append, joinWith] at hp ⊢
            rw [hp]; simp
      exact this _ _
  have jw2 : ∀ (xs ys : List Str), ys ≠ [] → ∃ pre, joinWith ['\n', '\n'] (xs ++ ys) =
      pre ++ joinWith ['\n', '\n'] ys := by
    intro xs ys hy
    induction xs with
    | nil => exact ⟨[], rfl⟩
    | cons x xs ih =>
      obtain ⟨pre, hp⟩ := ih
      cases hxy : xs ++ ys with
      | nil => simp at hxy; exact absurd hxy.2 hy
      | cons z zs =>
        refine ⟨x ++ ['\n', '\n'] ++ pre, ?_⟩
        rw [List.cons_append, hxy, joinWith, ← hxy, hp]; simp
  rw [C55_output, hh]
  simp only [List.flatMap_append, List.flatMap_cons, List.filter_append]
  by_cases ho : o.pieces.filter (· ≠ []) = []
  · rw [ho]; exact ⟨[], _, by simp only [List.nil_append, joinWith]; rfl⟩
  · obtain ⟨pre, h1⟩ := jw2 ((a.flatMap OutOp.pieces).filter (· ≠ []))
      (o.pieces.filter (· ≠ []) ++ (b.flatMap OutOp.pieces).filter (· ≠ [])) (by
        intro h; exact ho (List.append_eq_nil_iff.mp h).1)
    obtain ⟨post, h2⟩ := jw (o.pieces.filter (· ≠ [])) ((b.flatMap OutOp.pieces).filter (· ≠ []))
    exact ⟨pre, post, by rw [h1, h2]; simp⟩

example : outputGet ([OutOp.add (S "a"), .add [], .block [S "b", S "c"]].foldl OutOp.apply []) =
    S "a\n\nb\nc" := by decide

end CC
