import Verif.Model.Algo
/-!
# C40, C41: list utilities
-/

namespace CC

variable {α κ : Type}

/-! ## C40 -/

section uniq
variable [DecidableEq α]

theorem idxOf_cons_ne' {x y : α} (xs : List α) (h : x ≠ y) :
    (x :: xs).idxOf y = xs.idxOf y + 1 := by
  have : (x == y) = false := by simpa using h
  rw [List.idxOf_cons, this]; rfl

theorem idxOf_append_mem {l r : List α} {a : α} (h : a ∈ l) : (l ++ r).idxOf a = l.idxOf a := by
  simp [List.idxOf_append, h]

theorem idxOf_append_not_mem {l r : List α} {a : α} (h : a ∉ l) :
    (l ++ r).idxOf a = r.idxOf a + l.length := by
  simp [List.idxOf_append, h]

theorem uniqGo_mem (seen l : List α) (x : α) : x ∈ uniqGo seen l ↔ x ∈ l ∧ x ∉ seen := by
  induction l generalizing seen with
  | nil => simp [uniqGo]
  | cons y ys ih =>
    simp only [uniqGo]
    split
    · rename_i h
      rw [ih, List.mem_cons]
      constructor
      · rintro ⟨h1, h2⟩; exact ⟨Or.inr h1, h2⟩
      · rintro ⟨rfl | h1, h2⟩
        · exact absurd h h2
        · exact ⟨h1, h2⟩
    · rename_i h
      rw [List.mem_cons, ih, List.mem_cons, List.mem_cons, not_or]
      constructor
      · rintro (rfl | ⟨h1, h2, h3⟩)
        · exact ⟨Or.inl rfl, h⟩
        · exact ⟨Or.inr h1, h3⟩
      · rintro ⟨rfl | h1, h2⟩
        · exact Or.inl rfl
        · by_cases hx : x = y
          · exact Or.inl hx
          · exact Or.inr ⟨h1, hx, h2⟩

/-- **C40, `uniq`**: exactly the elements of the list. -/
theorem C40_uniq_mem (l : List α) (x : α) : x ∈ uniq l ↔ x ∈ l := by simp [uniq, uniqGo_mem]

theorem uniqGo_nodup (seen l : List α) : (uniqGo seen l).Nodup := by
  induction l generalizing seen with
  | nil => simp [uniqGo]
  | cons y ys ih =>
    simp only [uniqGo]
    split
    · exact ih _
    · rw [List.nodup_cons]
      refine ⟨?_, ih _⟩
      rw [uniqGo_mem]; simp

/-- **C40, `uniq`**: no element twice. -/
theorem C40_uniq_nodup (l : List α) : (uniq l).Nodup := uniqGo_nodup [] l

theorem uniqGo_order (seen l : List α) :
    (uniqGo seen l).Pairwise (fun a b => l.idxOf a < l.idxOf b) := by
  induction l generalizing seen with
  | nil => simp [uniqGo]
  | cons y ys ih =>
    have step : ∀ (seen' : List α), y ∈ seen' →
        (uniqGo seen' ys).Pairwise (fun a b => (y :: ys).idxOf a < (y :: ys).idxOf b) := by
      intro seen' hy
      refine List.Pairwise.imp_of_mem ?_ (ih seen')
      intro a b ha hb h
      have ha' : a ≠ y := by rintro rfl; exact ((uniqGo_mem _ _ _).mp ha).2 hy
      have hb' : b ≠ y := by rintro rfl; exact ((uniqGo_mem _ _ _).mp hb).2 hy
      rw [idxOf_cons_ne' _ (Ne.symm ha'), idxOf_cons_ne' _ (Ne.symm hb')]
      omega
    simp only [uniqGo]
    split
    · rename_i h; exact step seen h
    · rw [List.pairwise_cons]
      refine ⟨?_, step _ (by simp)⟩
      intro b hb
      have hb' : b ≠ y := by rintro rfl; exact ((uniqGo_mem _ _ _).mp hb).2 (by simp)
      rw [List.idxOf_cons_self, idxOf_cons_ne' _ (Ne.symm hb')]
      omega

/-- **C40, `uniq`**: the elements are in the order of their first occurrences. Together with the
two previous theorems this determines the result. -/
theorem C40_uniq_order (l : List α) :
    (uniq l).Pairwise (fun a b => l.idxOf a < l.idxOf b) := uniqGo_order [] l

end uniq

/-- **C40, `partition`**: the matching and the other elements, each in order. -/
theorem C40_partition (p : α → Bool) (l : List α) :
    partitionBy p l = (l.filter p, l.filter (fun x => !p x)) := by
  induction l with
  | nil => rfl
  | cons x xs ih => simp only [partitionBy, ih]; cases h : p x <;> simp [h]

/-- **C40, `flatten`**. -/
theorem C40_flatten (l : List (List α)) : flattenLists l = l.flatten := by
  induction l with
  | nil => rfl
  | cons x xs ih => simp [flattenLists, ih]

section group
variable [DecidableEq κ]

/-- Look a key up. -/
def groupGet (k : κ) (g : List (κ × List α)) : List α :=
  match g with
  | [] => []
  | (k', xs) :: r => if k = k' then xs else groupGet k r

theorem groupInsert_get (k k' : κ) (x : α) (g : List (κ × List α)) :
    groupGet k' (groupInsert k x g) = groupGet k' g ++ (if k' = k then [x] else []) := by
  induction g with
  | nil => simp only [groupInsert, groupGet]; split <;> simp
  | cons p r ih =>
    obtain ⟨k2, xs⟩ := p
    simp only [groupInsert]
    by_cases h : k = k2
    · subst h
      simp only [if_true, groupGet]
      split <;> simp
    · simp only [h, if_false, groupGet]
      by_cases h2 : k' = k2
      · subst h2; simp [Ne.symm h]
      · simp [h2, ih]

theorem groupInsert_keys (k : κ) (x : α) (g : List (κ × List α)) :
    (groupInsert k x g).map Prod.fst =
      g.map Prod.fst ++ (if k ∈ g.map Prod.fst then [] else [k]) := by
  induction g with
  | nil => simp [groupInsert]
  | cons p r ih =>
    obtain ⟨k2, xs⟩ := p
    simp only [groupInsert]
    by_cases h : k = k2
    · subst h; simp
    · simp only [h, if_false, List.map_cons, ih, List.cons_append, List.mem_cons, false_or]

theorem groupBy_snoc (f : α → κ) (l : List α) (x : α) :
    groupBy f (l ++ [x]) = groupInsert (f x) x (groupBy f l) := by
  simp [groupBy, List.foldl_append]

theorem snoc_induction {P : List α → Prop} (h0 : P []) (h1 : ∀ l x, P l → P (l ++ [x])) :
    ∀ l, P l := by
  intro l
  have : ∀ r : List α, P r.reverse := by
    intro r
    induction r with
    | nil => exact h0
    | cons x xs ih => rw [List.reverse_cons]; exact h1 _ _ ih
  simpa using this l.reverse

theorem groupBy_get (f : α → κ) (k : κ) (l : List α) :
    groupGet k (groupBy f l) = l.filter (fun x => f x = k) := by
  induction l using snoc_induction with
  | h0 => rfl
  | h1 l x ih =>
    rw [groupBy_snoc, groupInsert_get, ih, List.filter_append]
    congr 1
    by_cases h : f x = k
    · simp [h]
    · simp [h, Ne.symm h]

theorem groupBy_keys (f : α → κ) (l : List α) :
    ((groupBy f l).map Prod.fst).Nodup ∧
    (∀ k, k ∈ (groupBy f l).map Prod.fst ↔ k ∈ l.map f) ∧
    ((groupBy f l).map Prod.fst).Pairwise (fun a b => (l.map f).idxOf a < (l.map f).idxOf b) := by
  induction l using snoc_induction with
  | h0 => simp [groupBy]
  | h1 l x ih =>
    obtain ⟨hn, hm, ho⟩ := ih
    rw [groupBy_snoc, groupInsert_keys]
    by_cases h : f x ∈ (groupBy f l).map Prod.fst
    · rw [if_pos h]
      simp only [List.append_nil]
      refine ⟨hn, ?_, ?_⟩
      · intro k
        rw [hm]
        rw [hm] at h
        simp only [List.map_append, List.map_cons, List.map_nil, List.mem_append, List.mem_singleton]
        constructor
        · exact Or.inl
        · rintro (h' | rfl)
          · exact h'
          · exact h
      · refine List.Pairwise.imp_of_mem ?_ ho
        intro a b ha hb hlt
        rw [hm] at ha hb
        simp only [List.map_append]
        rw [idxOf_append_mem ha, idxOf_append_mem hb]
        exact hlt
    · rw [if_neg h]
      have h' := h
      rw [hm] at h'
      refine ⟨?_, ?_, ?_⟩
      · rw [List.nodup_append]
        refine ⟨hn, by simp, ?_⟩
        intro a ha b hb
        simp at hb; subst hb; rintro rfl; exact h ha
      · intro k
        simp only [List.map_append, List.map_cons, List.map_nil, List.mem_append,
          List.mem_singleton]
        rw [hm]
      · rw [List.pairwise_append]
        refine ⟨?_, by simp, ?_⟩
        · refine List.Pairwise.imp_of_mem ?_ ho
          intro a b ha hb hlt
          rw [hm] at ha hb
          simp only [List.map_append]
          rw [idxOf_append_mem ha, idxOf_append_mem hb]
          exact hlt
        · intro a ha b hb
          simp at hb; subst hb
          rw [hm] at ha
          simp only [List.map_append, List.map_cons, List.map_nil]
          rw [idxOf_append_mem ha, idxOf_append_not_mem h']
          have := List.idxOf_lt_length_iff.mpr ha
          simp only [List.idxOf_cons_self]
          omega

/-- **C40, `group_by`**: each key once, in the order of first appearance. -/
theorem C40_group_by_keys (f : α → κ) (l : List α) :
    ((groupBy f l).map Prod.fst).Nodup ∧
    (∀ k, k ∈ (groupBy f l).map Prod.fst ↔ ∃ x ∈ l, f x = k) ∧
    ((groupBy f l).map Prod.fst).Pairwise (fun a b => (l.map f).idxOf a < (l.map f).idxOf b) := by
  have := groupBy_keys f l
  simpa only [List.mem_map] using this

theorem groupGet_of_mem {g : List (κ × List α)} (hn : (g.map Prod.fst).Nodup) {k : κ} {xs : List α}
    (h : (k, xs) ∈ g) : groupGet k g = xs := by
  induction g with
  | nil => simp at h
  | cons p r ih =>
    obtain ⟨k2, ys⟩ := p
    simp only [List.map_cons, List.nodup_cons] at hn
    simp only [List.mem_cons, Prod.mk.injEq] at h
    rcases h with ⟨rfl, rfl⟩ | h
    · simp [groupGet]
    · have : k ≠ k2 := by
        rintro rfl; exact hn.1 (List.mem_map_of_mem (f := Prod.fst) h)
      simp [groupGet, this, ih hn.2 h]

/-- **C40, `group_by`**: the group of a key is exactly the elements with that key, in order. -/
theorem C40_group_by_groups (f : α → κ) (l : List α) (k : κ) (xs : List α)
    (h : (k, xs) ∈ groupBy f l) : xs = l.filter (fun x => f x = k) := by
  rw [← groupBy_get, groupGet_of_mem (groupBy_keys f l).1 h]

end group

/-- The integers `a, a+1, ..., a+n-1`. -/
def run1 (a : Int) (n : Nat) : List Int := (List.range n).map (fun i : Nat => a + (i : Int))

theorem run1_succ (a : Int) (n : Nat) : run1 a (n + 1) = a :: run1 (a + 1) n := by
  simp only [run1, List.range_succ_eq_map, List.map_cons, List.map_map]
  congr 1
  · simp
  · apply List.map_congr_left; intro i _; simp only [Function.comp_apply]; omega

theorem run1_sorted (a : Int) (n : Nat) : (run1 a n).Pairwise (· ≤ ·) := by
  induction n generalizing a with
  | zero => simp [run1]
  | succ n ih =>
    rw [run1_succ, List.pairwise_cons]
    refine ⟨?_, ih _⟩
    intro b hb
    simp [run1] at hb
    obtain ⟨i, _, rfl⟩ := hb
    omega

theorem stepsOfOne_iff (l : List Int) (h : l ≠ []) :
    stepsOfOne l = true ↔ l = run1 (l.head h) l.length := by
  induction l with
  | nil => exact absurd rfl h
  | cons a r ih =>
    cases r with
    | nil => simp [stepsOfOne, run1_succ]; simp [run1]
    | cons b r =>
      simp only [stepsOfOne, Bool.and_eq_true, beq_iff_eq]
      rw [ih (by simp)]
      simp only [List.head_cons, List.length_cons, run1_succ a, List.cons.injEq, true_and]
      constructor
      · rintro ⟨h1, h2⟩
        have : a + 1 = b := by omega
        rw [this]; exact h2
      · intro h2
        have h3 := h2
        rw [run1_succ] at h3
        injection h3 with h3 h4
        refine ⟨by omega, ?_⟩
        rw [h3]; rw [h3] at h2; exact h2

theorem insertInt_perm (a : Int) (l : List Int) : (insertInt a l).Perm (a :: l) := by
  induction l with
  | nil => exact List.Perm.refl _
  | cons b bs ih =>
    simp only [insertInt]
    split
    · exact List.Perm.refl _
    · exact (ih.cons b).trans (List.Perm.swap a b bs)

theorem sortInts_perm (l : List Int) : (sortInts l).Perm l := by
  induction l with
  | nil => exact List.Perm.refl _
  | cons a l ih => exact (insertInt_perm a _).trans (ih.cons a)

theorem insertInt_sorted (a : Int) (l : List Int) (h : l.Pairwise (· ≤ ·)) : (insertInt a l).Pairwise (· ≤ ·) := by
  induction l with
  | nil => simp [insertInt]
  | cons b bs ih =>
    rw [List.pairwise_cons] at h
    simp only [insertInt]
    split
    · rename_i hab
      rw [List.pairwise_cons]
      refine ⟨?_, List.pairwise_cons.2 h⟩
      intro c hc
      simp only [List.mem_cons] at hc
      rcases hc with rfl | hc
      · exact hab
      · exact Int.le_trans hab (h.1 c hc)
    · rename_i hab
      rw [List.pairwise_cons]
      refine ⟨?_, ih h.2⟩
      intro c hc
      have := (insertInt_perm a bs).mem_iff.1 hc
      simp only [List.mem_cons] at this
      rcases this with rfl | hc
      · omega
      · exact h.1 c hc

theorem sortInts_sorted (l : List Int) : (sortInts l).Pairwise (· ≤ ·) := by
  induction l with
  | nil => simp [sortInts]
  | cons a l ih => exact insertInt_sorted a _ ih

/-- **C40, `numbers_are_contiguous`**: true exactly for a rearrangement of a non-empty run
`a, a+1, ..., a+n-1`, each number once. -/
theorem C40_numbers_are_contiguous (l : List Int) :
    numbersAreContiguous l = true ↔
      ∃ (a : Int) (n : Nat), 0 < n ∧ l.Perm ((List.range n).map (fun i : Nat => a + (i : Int))) := by
  have hp := sortInts_perm l
  simp only [numbersAreContiguous, Bool.and_eq_true, Bool.not_eq_true', List.isEmpty_eq_false_iff]
  constructor
  · rintro ⟨hne, h⟩
    have hne' : sortInts l ≠ [] := by
      intro h0; rw [h0] at hp; exact hne (List.nil_perm.mp hp)
    rw [stepsOfOne_iff _ hne'] at h
    exact ⟨_, _, List.length_pos_iff.mpr hne', hp.symm.trans (List.Perm.of_eq h)⟩
  · rintro ⟨a, n, hn, h⟩
    have hne : l ≠ [] := by
      rintro rfl
      have := h.length_eq
      simp at this; omega
    refine ⟨hne, ?_⟩
    have h1 : sortInts l = run1 a n :=
      List.Perm.eq_of_pairwise (fun a b _ _ h1 h2 => Int.le_antisymm h1 h2) (sortInts_sorted l)
        (run1_sorted a n) (hp.trans h)
    rw [h1, stepsOfOne_iff]
    · cases n with
      | zero => omega
      | succ n => simp [run1]
    · cases n with
      | zero => omega
      | succ n => simp [run1_succ]

example : numbersAreContiguous [3, 1, 2] = true := by
  rw [C40_numbers_are_contiguous]
  exact ⟨1, 3, by decide, by decide⟩

/-! ## C41 -/

/-- Apply a history of assignments to a list. -/
def sparseRun (dflt : α) (l : List α) (h : List (Nat × α)) : List α :=
  h.foldl (fun l p => sparseSet dflt l p.1 p.2) l

/-- The last value assigned to `i` in a history. -/
def lastAssigned (h : List (Nat × α)) (i : Nat) : Option α :=
  ((h.filter (fun p => p.1 == i)).getLast?).map Prod.snd

theorem sparseSet_length (dflt : α) (l : List α) (i : Nat) (v : α) :
    (sparseSet dflt l i v).length = max l.length (i + 1) := by
  simp only [sparseSet, sparseExtend, List.length_set]
  split
  · simp; omega
  · omega

theorem sparseSet_get (dflt : α) (l : List α) (i j : Nat) (v : α) (hj : j < max l.length (i + 1)) :
    (sparseSet dflt l i v)[j]? = some (if j = i then v else (l[j]?).getD dflt) := by
  simp only [sparseSet, sparseExtend, List.getElem?_set]
  by_cases h : i = j
  · subst h
    simp only [if_true]
    have : i < (if i ≥ l.length then l ++ List.replicate (i + 1 - l.length) dflt else l).length := by
      split
      · simp; omega
      · omega
    simp only [this, if_true]
  · have h' : ¬ j = i := fun e => h e.symm
    simp only [h, h', if_false]
    split
    · rename_i hge
      rw [List.getElem?_append]
      split
      · rename_i hlt; simp [List.getElem?_eq_getElem hlt]
      · rename_i hlt
        have : l[j]? = none := by simp; omega
        rw [this, List.getElem?_replicate]
        have : j - l.length < i + 1 - l.length := by omega
        simp [this]
    · have : j < l.length := by omega
      simp [List.getElem?_eq_getElem this]

/-- **C41**: the length is one more than the highest assigned index (or the initial length). -/
theorem C41_length (dflt : α) (init : List α) (h : List (Nat × α)) :
    (sparseRun dflt init h).length = h.foldl (fun m p => max m (p.1 + 1)) init.length := by
  induction h using snoc_induction with
  | h0 => rfl
  | h1 h p ih =>
    simp only [sparseRun, List.foldl_append, List.foldl_cons, List.foldl_nil] at ih ⊢
    rw [sparseSet_length, ih]

/-- **C41**: reading any index below the length gives the last value assigned to it, else the
initial value, else the default. -/
theorem C41_get (dflt : α) (init : List α) (h : List (Nat × α)) (j : Nat)
    (hj : j < (sparseRun dflt init h).length) :
    (sparseRun dflt init h)[j]? = some ((lastAssigned h j).getD ((init[j]?).getD dflt)) := by
  induction h using snoc_induction with
  | h0 =>
    simp only [sparseRun, List.foldl_nil] at hj ⊢
    simp [lastAssigned, List.getElem?_eq_getElem hj]
  | h1 h p ih =>
    obtain ⟨i, v⟩ := p
    simp only [sparseRun, List.foldl_append, List.foldl_cons, List.foldl_nil] at ih hj ⊢
    rw [sparseSet_length] at hj
    rw [sparseSet_get _ _ _ _ _ hj]
    by_cases hji : j = i
    · subst hji; simp [lastAssigned]
    · have hij : (i == j) = false := by simp; exact fun e => hji e.symm
      simp only [hji, if_false, lastAssigned, List.filter_append, List.filter_cons, hij,
        List.filter_nil, List.append_nil, Bool.false_eq_true]
      by_cases hlt : j < (h.foldl (fun l p => sparseSet dflt l p.1 p.2) init).length
      · rw [ih hlt]; rfl
      · -- beyond the old length: nothing was assigned, nothing was there initially
        have hl := C41_length dflt init h
        simp only [sparseRun] at hl
        rw [List.getElem?_eq_none (by omega)]
        have mono : ∀ (h : List (Nat × α)) (m : Nat),
            m ≤ h.foldl (fun m p => max m (p.1 + 1)) m ∧
            ∀ q ∈ h, q.1 + 1 ≤ h.foldl (fun m p => max m (p.1 + 1)) m := by
          intro h
          induction h with
          | nil => simp
          | cons q qs ih2 =>
            intro m
            simp only [List.foldl_cons]
            have := ih2 (max m (q.1 + 1))
            refine ⟨by omega, ?_⟩
            intro q' hq'
            simp at hq'
            rcases hq' with rfl | hq'
            · omega
            · exact this.2 q' hq'
        have hm := mono h init.length
        have h1 : init[j]? = none := by apply List.getElem?_eq_none; omega
        have h2 : h.filter (fun p => p.1 == j) = [] := by
          rw [List.filter_eq_nil_iff]
          intro q hq hqj
          simp at hqj
          have := hm.2 q hq
          omega
        rw [h1, h2]; rfl

/-- `insert` past the end leaves one extra default behind the inserted value. -/
theorem C41_insert_past_end (dflt : α) (l : List α) (i : Nat) (v : α) (h : l.length ≤ i) :
    sparseInsert dflt l i v = l ++ List.replicate (i - l.length) dflt ++ [v, dflt] := by
  simp only [sparseInsert, sparseExtend, ge_iff_le, h, if_true]
  have e : i + 1 - l.length = (i - l.length) + 1 := by omega
  rw [e, List.replicate_succ', ← List.append_assoc]
  have hl : (l ++ List.replicate (i - l.length) dflt).length = i := by simp; omega
  have ins : ∀ (p r : List α), (p ++ r).insertIdx p.length v = p ++ v :: r := by
    intro p r; induction p <;> simp_all
  have := ins (l ++ List.replicate (i - l.length) dflt) [dflt]
  rw [hl] at this
  exact this

example : sparseRun 0 [] [(2, 7), (0, 5), (2, 9)] = [5, 0, 9] := by decide

end CC
