import Verif.Props.BashWords
import Verif.Spec.ItemList
import Verif.Model.BashValueList
/-!
# C82: the helper function `value_list`
-/

namespace CC
open Typed ItemList

theorem items_cases (sep : Char) (u : Str) : ∃ i r, items sep u = i :: r := by
  cases u with
  | nil => exact ⟨_, _, rfl⟩
  | cons c cs =>
    simp only [items]
    split
    · exact ⟨_, _, rfl⟩
    · split <;> exact ⟨_, _, rfl⟩

/-- The fields without an empty one at the end. -/
def withoutEmptyLast (l : List Str) : List Str := if l.getLastD [] = [] then l.dropLast else l

theorem withoutEmptyLast_cons (a b : Str) (l : List Str) :
    withoutEmptyLast (a :: b :: l) = a :: withoutEmptyLast (b :: l) := by
  simp only [withoutEmptyLast]
  split <;> rename_i h
  · rw [if_pos (by simpa using h)]; simp
  · rw [if_neg (by simpa using h)]

theorem fieldsLoop_spec (sep : Char) (u : Str) : ∀ acc i r, items sep u = i :: r →
    fieldsLoop sep acc u = withoutEmptyLast ((acc ++ i) :: r) := by
  induction u with
  | nil =>
    intro acc i r h
    simp only [items, List.cons.injEq] at h
    obtain ⟨rfl, rfl⟩ := h
    simp only [fieldsLoop, withoutEmptyLast, List.append_nil, List.isEmpty_iff]
    simp
  | cons c cs ih =>
    intro acc i r h
    obtain ⟨i', r', h'⟩ := items_cases sep cs
    simp only [items, h'] at h
    simp only [fieldsLoop]
    split
    · rename_i hc
      rw [if_pos hc] at h
      simp only [List.cons.injEq] at h
      obtain ⟨rfl, rfl⟩ := h
      rw [ih [] i' r' h', List.nil_append, List.append_nil, withoutEmptyLast_cons]
    · rename_i hc
      rw [if_neg hc] at h
      simp only [List.cons.injEq] at h
      obtain ⟨rfl, rfl⟩ := h
      rw [ih _ i' r' h']
      simp

theorem fields_items (sep : Char) (u : Str) : fieldsLoop sep [] u = withoutEmptyLast (items sep u) := by
  obtain ⟨i, r, h⟩ := items_cases sep u
  rw [fieldsLoop_spec sep u [] i r h, h]
  rfl

theorem current_cons (sep c : Char) (cs : Str) :
    current sep (c :: cs) = if c ≠ sep ∧ (items sep cs).length = 1 then c :: current sep cs else current sep cs := by
  obtain ⟨i, r, h⟩ := items_cases sep cs
  simp only [current, items, h]
  by_cases hc : c = sep
  · simp [hc]
  · cases r <;> simp [hc]

theorem items_length (sep : Char) (u : Str) : (items sep u).length = 1 → u = current sep u := by
  induction u with
  | nil => intro _; rfl
  | cons c cs ih =>
    obtain ⟨i, r, h⟩ := items_cases sep cs
    intro hl
    rw [current_cons]
    simp only [items, h] at hl
    by_cases hc : c = sep
    · simp [hc] at hl
    · rw [if_neg hc] at hl
      have hl' : (items sep cs).length = 1 := by rw [h]; exact hl
      rw [if_pos ⟨hc, hl'⟩, ← ih hl']

theorem before_current (sep : Char) (u : Str) : u = before sep u ++ current sep u := by
  have : current sep u <:+ u := by
    induction u with
    | nil => exact ⟨[], rfl⟩
    | cons c cs ih =>
      rw [current_cons]
      split
      · rename_i h
        rw [← items_length sep cs h.2]
        exact List.suffix_refl _
      · exact ih.trans (List.suffix_cons c cs)
  obtain ⟨f, hf⟩ := this
  have hb : before sep u = f := by
    have hl := congrArg List.length hf
    rw [List.length_append] at hl
    unfold before
    rw [show u.length - (current sep u).length = f.length by omega]
    calc u.take f.length = (f ++ current sep u).take f.length := by rw [hf]
      _ = f := by simp
  rw [hb, hf]

theorem current_empty (sep : Char) (u : Str) (hu : u ≠ []) : current sep u = [] ↔ u.getLast? = some sep := by
  induction u with
  | nil => exact absurd rfl hu
  | cons c cs ih =>
    rw [current_cons]
    cases cs with
    | nil => by_cases hc : c = sep <;> simp [items, current, hc]
    | cons d ds =>
      have ih' := ih (by simp)
      split
      · rename_i h
        rw [List.getLast?_cons_cons, ← ih', ← items_length sep _ h.2]
        simp
      · rw [List.getLast?_cons_cons]
        exact ih'

theorem items_split (sep : Char) (u : Str) : items sep u = finished sep u ++ [current sep u] := by
  obtain ⟨i, r, h⟩ := items_cases sep u
  simp only [finished, current, h, List.getLastD_cons]
  clear h
  induction r generalizing i with
  | nil => rfl
  | cons j r ih => simp only [List.dropLast_cons₂, List.cons_append, List.getLastD_cons]; rw [← ih]

theorem takeWhile_line (u : Str) (hn : '\n' ∉ u) : u.takeWhile (· != '\n') = u := by
  induction u with
  | nil => rfl
  | cons c cs ih =>
    have hc : c ≠ '\n' := fun e => hn (by simp [e])
    simp only [List.takeWhile_cons, bne_iff_ne, ne_eq, hc, not_false_eq_true, if_true]
    rw [ih (fun h => hn (by simp [h]))]

theorem readFields_spec (sep : Char) (hs : sep ≠ '\n') (u : Str) (hn : '\n' ∉ u) :
    (∀ v, (sep = ' ' ∨ sep = '\t' → v ≠ []) →
      (v ∈ readFields sep u ↔ v ∈ finished sep u ∨ (v = current sep u ∧ current sep u ≠ []))) ∧
    (current sep u ≠ [] → ∃ front, readFields sep u = front ++ [current sep u]) := by
  have hisp := items_split sep u
  have hw : fieldsLoop sep [] u = if current sep u = [] then finished sep u else items sep u := fields_items sep u
  simp only [readFields, takeWhile_line u hn, hw, hs, or_false]
  constructor
  · intro v hv
    by_cases hb : sep = ' ' ∨ sep = '\t'
    · rw [if_pos hb, List.mem_filter]
      have := hv hb
      by_cases hc : current sep u = []
      · simp [hc, this]
      · rw [if_neg hc, hisp]
        simp [hc, this]
    · rw [if_neg hb]
      by_cases hc : current sep u = []
      · simp [hc]
      · rw [if_neg hc, hisp]
        simp [hc]
  · intro hc
    rw [if_neg hc, hisp, List.filter_append]
    by_cases hb : sep = ' ' ∨ sep = '\t'
    · rw [if_pos hb]
      refine ⟨_, congrArg _ ?_⟩
      simp [hc]
    · rw [if_neg hb]
      exact ⟨_, rfl⟩

theorem accept_stripped (breaks : List Char) (cur x : Str) :
    accept breaks cur (afterBreak (lastBreak breaks (read .bare cur).1) (text cur) ++ x) = text cur ++ x := by
  unfold accept afterBreak
  cases lastBreak breaks (read .bare cur).1 <;> simp
  rw [← List.append_assoc, List.take_append_drop]

theorem removeSuffix_append (a b : Str) : removeSuffix b (a ++ b) = a := by
  unfold removeSuffix
  rw [if_pos (by simp)]
  simp

/-- **C82.** A word results from a choice exactly when it is one that a list of values should be completed to. It is
partial because of the hypotheses: the separator is no newline, and if it is a blank, no value is empty (`C82_blank`), the word is one line, no unquoted break
character is in the current item (`C82_break`), and those of C80. -/
theorem C82_value_list_partial (breaks : List Char) (dup : Bool) (sep : Char) (values : List Str) (cur : Str)
    (hs : sep ≠ '\n') (hv : sep = ' ' ∨ sep = '\t' → [] ∉ values) (hc : clean .bare cur = true) (hn : '\n' ∉ text cur)
    (hb : ∀ n, lastBreak breaks (read .bare cur).1 = some n → n ≤ (before sep (text cur)).length) (word : Str) :
    word ∈ (valueListHelper breaks dup sep values cur).map (accept breaks cur) ↔
      Offered dup sep values (text cur) word := by
  unfold valueListHelper
  rw [C80_dequote_partial breaks cur hc]
  simp only
  have hacc := fun x => accept_stripped breaks cur x
  have hbc := before_current sep (text cur)
  obtain ⟨hrf, hrl⟩ := readFields_spec sep hs (text cur) hn
  have hrf : ∀ v ∈ values, v ∈ readFields sep (text cur) ↔
      v ∈ finished sep (text cur) ∨ (v = current sep (text cur) ∧ current sep (text cur) ≠ []) :=
    fun v h => hrf v (fun hb e => hv hb (e ▸ h))
  have hce := current_empty sep (text cur)
  have hacc0 : text cur = [] → ∀ x, accept breaks cur x = x := by
    intro h x
    simp [accept, h]
  have hsuf : ∀ v, accept breaks cur
      (removeSuffix (current sep (text cur)) (afterBreak (lastBreak breaks (read .bare cur).1) (text cur)) ++ v) =
      before sep (text cur) ++ v := by
    intro v
    unfold accept afterBreak
    revert hb hbc
    generalize before sep (text cur) = b
    generalize current sep (text cur) = c
    generalize text cur = u
    rintro hb rfl
    cases hl : lastBreak breaks (read .bare cur).1 with
    | none =>
      simp only [Option.getD_none, List.take_zero, List.nil_append, removeSuffix_append]
    | some n =>
      have hle := hb n hl
      simp only [Option.getD_some]
      rw [List.drop_append_of_le_length hle, removeSuffix_append, List.take_append_of_le_length hle,
        ← List.append_assoc, List.take_append_drop]
  generalize text cur = u at *
  generalize afterBreak (lastBreak breaks (read .bare cur).1) u = stripped at *
  generalize accept breaks cur = acc at *
  unfold Offered
  by_cases hu : u = []
  · subst hu
    rw [if_pos (show List.isEmpty ([] : Str) = true from rfl), if_neg (by simp [current, items])]
    simp only [List.mem_map]
    constructor
    · rintro ⟨v, hv, rfl⟩
      refine ⟨v, hv, ?_, by simp [current, items], Or.inr (by simp [finished, items])⟩
      rw [hacc0 rfl]
      rfl
    · rintro ⟨v, hv, h, _⟩
      refine ⟨v, hv, ?_⟩
      rw [hacc0 rfl, h]
      rfl
  · rw [if_neg (show ¬ List.isEmpty u = true by simpa using hu)]
    generalize readFields sep u = having at *
    have hce := hce hu
    by_cases hcur : current sep u = []
    · rw [if_pos (hce.mp hcur), if_neg (by simp [hcur])]
      have hbu : before sep u = u := by rw [hcur, List.append_nil] at hbc; exact hbc.symm
      simp only [List.mem_map, hbu, hcur, List.nil_prefix, true_and]
      constructor
      · rintro ⟨_, ⟨v, hv, rfl⟩, rfl⟩
        rw [hacc]
        revert hv
        unfold remainingValues
        cases dup
        · simp only [Bool.false_eq_true, if_false, List.mem_filter, false_or]
          rintro ⟨h1, h2⟩
          refine ⟨v, h1, rfl, fun h => ?_⟩
          have := (hrf v h1).mpr (Or.inl h)
          simp [this] at h2
        · simp only [if_true, true_or, and_true]
          intro h1
          exact ⟨v, h1, rfl⟩
      · rintro ⟨v, hv, rfl, hd⟩
        refine ⟨_, ⟨v, ?_, rfl⟩, hacc v⟩
        unfold remainingValues
        cases dup
        · simp only [Bool.false_eq_true, if_false, List.mem_filter]
          refine ⟨hv, ?_⟩
          have := hrf v hv
          simp only [hcur, ne_eq, not_true_eq_false, and_false, or_false] at this
          simpa [this] using hd
        · exact hv
    · rw [if_neg (fun h => hcur (hce.mpr h))]
      obtain ⟨front, hfront⟩ := hrl hcur
      have hlast : having.getLastD [] = current sep u := by rw [hfront]; simp
      have hne : having.isEmpty = false := by rw [hfront]; simp
      simp only [hlast, hne]
      have hrem : ∀ v, v ∈ remainingValues dup values having ↔
          v ∈ values ∧ (dup = true ∨ (v ≠ current sep u ∧ v ∉ finished sep u)) := by
        intro v
        unfold remainingValues
        cases dup
        · simp only [Bool.false_eq_true, if_false, List.mem_filter, false_or]
          refine and_congr_right fun hv => ?_
          have := hrf v hv
          simp only [Bool.not_eq_true', List.contains_eq_mem, decide_eq_false_iff_not, this]
          simp [hcur, and_comm]
        · simp
      by_cases hv : current sep u ∈ values
      · rw [if_pos (show current sep u ≠ [] ∧ current sep u ∈ values from ⟨hcur, hv⟩)]
        by_cases hr : remainingValues dup values having = []
        · rw [if_pos (show List.isEmpty (remainingValues dup values having) = true by simp [hr])]
          simp only [List.map_nil, List.not_mem_nil, false_iff, not_and]
          rintro _ ⟨v, h1, h2⟩
          have := (hrem v).mpr ⟨h1, h2⟩
          rw [hr] at this
          simp at this
        · rw [if_neg (show ¬ List.isEmpty (remainingValues dup values having) = true by simpa using hr),
            if_pos (show values.contains (current sep u) = true by simpa using hv)]
          simp only [List.map_cons, List.map_nil, List.mem_singleton, hacc]
          obtain ⟨v, hvm⟩ := List.exists_mem_of_ne_nil _ hr
          obtain ⟨h1, h2⟩ := (hrem v).mp hvm
          exact ⟨fun h => ⟨h, v, h1, h2⟩, fun h => h.1⟩
      · rw [if_neg (show ¬ (current sep u ≠ [] ∧ current sep u ∈ values) from fun h => hv h.2)]
        have hmem : word ∈ ((remainingValues dup values having).filter (fun v => (current sep u).isPrefixOf v)).map
            (fun v => acc (removeSuffix (current sep u) stripped ++ v)) ↔
            ∃ v ∈ values, word = before sep u ++ v ∧ current sep u <+: v ∧ (dup = true ∨ v ∉ finished sep u) := by
          simp only [List.mem_map, List.mem_filter, List.isPrefixOf_iff_prefix, hsuf, hrem]
          constructor
          · rintro ⟨v, ⟨⟨h1, h2⟩, h3⟩, rfl⟩
            exact ⟨v, h1, rfl, h3, h2.imp id (·.2)⟩
          · rintro ⟨v, h1, rfl, h3, h4⟩
            exact ⟨v, ⟨⟨h1, h4.imp id (fun h => ⟨fun e => hv (e ▸ h1), h⟩)⟩, h3⟩, rfl⟩
        rw [← hmem]
        by_cases hr : remainingValues dup values having = []
        · rw [if_pos (show List.isEmpty (remainingValues dup values having) = true by simp [hr]), hr]
          simp
        · rw [if_neg (show ¬ List.isEmpty (remainingValues dup values having) = true by simpa using hr),
            if_neg (show ¬ values.contains (current sep u) = true by simpa using hv)]
          simp only [Bool.false_eq_true, if_false, List.map_map]
          rfl

/-- The values of the examples. -/
def fruits : List Str := [S "apple", S "apricot", S "banana"]

theorem C82_example :
    clean .bare (S "banana,'ap") = true ∧
    (∀ n, lastBreak [':'] (read .bare (S "banana,'ap")).1 = some n → n ≤ (before ',' (text (S "banana,'ap"))).length) ∧
    valueListHelper [':'] false ',' fruits (S "banana,'ap") = [S "banana,apple", S "banana,apricot"] ∧
    valueListHelper [':'] false ',' fruits (S "banana") = [S "banana,"] ∧
    valueListHelper [','] false ',' fruits (S "banana,") = [S "apple", S "apricot"] ∧
    valueListHelper [':'] true ',' fruits (S "banana,b") = [S "banana,banana"] ∧
    valueListHelper [':'] false ',' fruits (S "banana,b") = [] := by
  refine ⟨by decide +kernel, ?_, by decide +kernel, by decide +kernel, by decide +kernel, by decide +kernel,
    by decide +kernel⟩
  intro n hn
  have : lastBreak [':'] (read .bare (S "banana,'ap")).1 = none := by decide +kernel
  rw [this] at hn
  simp at hn

/-- A value that continues another one cannot be reached: `foo` is a value, so only the separator is offered. This is
the meaning that `Offered` gives to the property, and what users of `foobar` do not expect. -/
theorem C82_hidden : valueListHelper [] false ',' [S "foo", S "foobar"] (S "foo") = [S "foo,"] := by decide +kernel

/-- With `:` among the break characters, `a:` is completed to `a:a:1`. -/
theorem C82_break : valueListHelper [':'] false ',' [S "a:1", S "a:2"] (S "a:") = [S "a:1", S "a:2"] ∧
    accept [':'] (S "a:") (S "a:1") = S "a:a:1" := by decide +kernel

/-- With a blank as the separator, an empty item is not seen: the empty value is offered again. -/
theorem C82_blank : valueListHelper [] false ' ' [[], S "x"] (S "' ") = [S " ", S " x"] ∧
    [] ∈ finished ' ' (text (S "' ")) := by decide +kernel

/-- The word counts up to its first newline: after that newline the values are offered again. -/
theorem C82_newline : valueListHelper [] false ',' [S "x", S "y"] (S "'x\n,x,") = [S "x\n,x,y"] ∧
    valueListHelper [] false ',' [S "x", S "y"] (S "'y\n,x,") = [S "y\n,x,x"] := by decide +kernel

end CC
