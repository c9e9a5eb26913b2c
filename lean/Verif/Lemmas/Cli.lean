import Verif.Spec.CliSpec
import Verif.Props.Algo
import Verif.Props.StrUtils
/-!
# Lemmas about the command line model
-/

namespace CC

/-! ## Induction over command trees -/

theorem Cmd.ind {P : Cmd → Prop}
    (h : ∀ d s ch, (∀ c ∈ ch, P c) → P (.node d s ch)) (c : Cmd) : P c :=
  Cmd.rec (motive_1 := P) (motive_2 := fun ch => ∀ c ∈ ch, P c)
    (fun d s ch ih => h d s ch ih) (by simp)
    (fun c cs hc hcs => by
      intro x hx; simp at hx; rcases hx with rfl | hx; exact hc; exact hcs x hx) c

mutual
/-- Number of commands in a tree. -/
def Cmd.size : Cmd → Nat
  | .node _ _ ch => 1 + Cmd.sizeList ch
/-- Number of commands in a list of trees. -/
def Cmd.sizeList : List Cmd → Nat
  | [] => 0
  | c :: cs => c.size + Cmd.sizeList cs
end

theorem size_le_sizeList {ch : List Cmd} {c : Cmd} (h : c ∈ ch) : c.size ≤ Cmd.sizeList ch := by
  induction ch with
  | nil => simp at h
  | cons x xs ih =>
    simp only [List.mem_cons] at h
    simp only [Cmd.sizeList]
    rcases h with rfl | h
    · omega
    · have := ih h; omega

theorem size_child {c d : Cmd} (h : d ∈ c.children) : d.size < c.size := by
  cases c with
  | node a s ch =>
    have := size_le_sizeList (ch := ch) (c := d) h
    simp only [Cmd.size]; omega

/-! ## Equality -/

theorem Opt.eqv_refl (o : Opt) : o.eqv o = true := by simp [Opt.eqv]
theorem Opt.eqv_iff (a b : Opt) : a.eqv b = true ↔ { a with longSep := b.longSep } = b := by
  simp [Opt.eqv]
theorem Opt.eqv_symm {a b : Opt} (h : a.eqv b = true) : b.eqv a = true := by
  rw [Opt.eqv_iff] at h ⊢
  rw [← h]
theorem Opt.eqv_comm (a b : Opt) : a.eqv b = b.eqv a := by
  rw [Bool.eq_iff_iff]; exact ⟨Opt.eqv_symm, Opt.eqv_symm⟩
theorem Opt.eqv_trans {a b c : Opt} (h : a.eqv b = true) (h' : b.eqv c = true) : a.eqv c = true := by
  rw [Opt.eqv_iff] at h h' ⊢
  rw [← h', ← h]
theorem Opt.eqv_fields {a b : Opt} (h : a.eqv b = true) :
    a.strings = b.strings ∧ a.groups = b.groups := by
  rw [Opt.eqv_iff] at h
  rw [← h]; exact ⟨rfl, rfl⟩

theorem eqvList_refl_of (ch : List Cmd) (h : ∀ c ∈ ch, c.eqv c = true) : Cmd.eqvList ch ch = true := by
  induction ch with
  | nil => rfl
  | cons c cs ih =>
    simp only [Cmd.eqvList, h c (by simp), ih (fun x hx => h x (by simp [hx])), Bool.and_true]

theorem zip_self_all (l : List Opt) : (l.zip l).all (fun p => p.1.eqv p.2) = true := by
  induction l with
  | nil => rfl
  | cons x xs ih => simp [Opt.eqv_refl, ih]

theorem Cmd.eqv_refl (c : Cmd) : c.eqv c = true := by
  induction c using Cmd.ind with
  | h d s ch ih =>
    simp only [Cmd.eqv, decide_true, beq_self_eq_true, zip_self_all,
      eqvList_refl_of ch ih, Bool.and_self]

theorem eqvList_size (ch : List Cmd) (ih : ∀ c ∈ ch, ∀ c', c.eqv c' = true → c.size = c'.size) :
    ∀ ch', Cmd.eqvList ch ch' = true → Cmd.sizeList ch = Cmd.sizeList ch' := by
  induction ch with
  | nil => intro ch' h; cases ch' <;> simp_all [Cmd.eqvList]
  | cons c cs ih2 =>
    intro ch' h
    cases ch' with
    | nil => simp [Cmd.eqvList] at h
    | cons c' cs' =>
      simp only [Cmd.eqvList, Bool.and_eq_true] at h
      simp only [Cmd.sizeList, ih c (by simp) c' h.1,
        ih2 (fun x hx => ih x (by simp [hx])) cs' h.2]

theorem Cmd.eqv_size (c : Cmd) : ∀ c', c.eqv c' = true → c.size = c'.size := by
  induction c using Cmd.ind with
  | h d s ch ih =>
    intro c' h
    cases c' with
    | node d' s' ch' =>
      simp only [Cmd.eqv, Bool.and_eq_true] at h
      simp only [Cmd.size, eqvList_size ch ih ch' h.2]

/-- A command is never equal to one of its ancestors, and ancestors differ from each other. -/
theorem at_chain {root : Cmd} {parents : List Cmd} {c : Cmd} (h : At root parents c) :
    (parents ++ [c]).Pairwise (fun a b => b.size < a.size) := by
  induction h with
  | root => simp
  | child h hd ih =>
    rename_i ps c d
    rw [List.pairwise_append]
    refine ⟨ih, by simp, ?_⟩
    intro a ha b hb
    simp at hb; subst hb
    have hdc := size_child hd
    rw [List.mem_append] at ha
    rcases ha with ha | ha
    · have := (List.pairwise_append.1 ih).2.2 a ha c (by simp)
      omega
    · simp at ha; subst ha; exact hdc

theorem at_chain_distinct {root : Cmd} {parents : List Cmd} {c : Cmd} (h : At root parents c) :
    (parents ++ [c]).reverse.Pairwise (fun a b => b.eqv a = false ∧ a.eqv b = false) := by
  rw [List.pairwise_reverse]
  refine (at_chain h).imp ?_
  intro a b hab
  constructor
  · rw [← Bool.not_eq_true]; intro h; have := Cmd.eqv_size _ _ h; omega
  · rw [← Bool.not_eq_true]; intro h; have := Cmd.eqv_size _ _ h; omega

/-! ## Sorted strings -/

theorem strLe_total (a b : Str) : strLe a b = true ∨ strLe b a = true := by
  induction a generalizing b with
  | nil => simp [strLe]
  | cons x xs ih =>
    cases b with
    | nil => simp [strLe]
    | cons y ys =>
      simp only [strLe]
      by_cases h1 : x.toNat < y.toNat
      · simp [h1]
      · by_cases h2 : y.toNat < x.toNat
        · simp [h2]
        · have h3 : x.toNat = y.toNat := by omega
          have : x = y := Char.toNat_inj.1 h3
          subst this
          simpa using ih ys

theorem strLe_antisymm {a b : Str} (h1 : strLe a b = true) (h2 : strLe b a = true) : a = b := by
  induction a generalizing b with
  | nil => cases b with
    | nil => rfl
    | cons => simp [strLe] at h2
  | cons x xs ih =>
    cases b with
    | nil => simp [strLe] at h1
    | cons y ys =>
      simp only [strLe] at h1 h2
      by_cases hx : x.toNat < y.toNat
      · have : ¬ y.toNat < x.toNat := by omega
        have hne : y ≠ x := by rintro rfl; omega
        simp [this, hne] at h2
      · by_cases hy : y.toNat < x.toNat
        · have hne : x ≠ y := by rintro rfl; omega
          simp [hx, hne] at h1
        · have : x = y := Char.toNat_inj.1 (by omega)
          subst this
          simp at h1 h2
          rw [ih h1 h2]

theorem strLe_trans {a b c : Str} (h1 : strLe a b = true) (h2 : strLe b c = true) :
    strLe a c = true := by
  induction a generalizing b c with
  | nil => simp [strLe]
  | cons x xs ih =>
    cases b with
    | nil => simp [strLe] at h1
    | cons y ys =>
      cases c with
      | nil => simp [strLe] at h2
      | cons z zs =>
        simp only [strLe] at h1 h2 ⊢
        by_cases hxy : x.toNat < y.toNat
        · by_cases hyz : y.toNat < z.toNat
          · rw [if_pos (by omega)]
          · rw [if_neg hyz] at h2
            split at h2
            · rename_i h; subst h; rw [if_pos hxy]
            · cases h2
        · rw [if_neg hxy] at h1
          split at h1
          · rename_i h; subst h
            by_cases hyz : x.toNat < z.toNat
            · rw [if_pos hyz]
            · rw [if_neg hyz] at h2 ⊢
              split at h2
              · rename_i h; subst h; rw [if_pos rfl]; exact ih h1 h2
              · cases h2
          · cases h1

theorem insertStr_perm (a : Str) (l : List Str) : (insertStr a l).Perm (a :: l) := by
  induction l with
  | nil => exact List.Perm.refl _
  | cons b bs ih =>
    simp only [insertStr]
    split
    · exact List.Perm.refl _
    · exact (List.Perm.cons b ih).trans (List.Perm.swap a b bs)

theorem sortStrs_perm (l : List Str) : (sortStrs l).Perm l := by
  induction l with
  | nil => exact List.Perm.refl _
  | cons a l ih => exact (insertStr_perm a _).trans (List.Perm.cons a ih)

theorem insertStr_sorted (a : Str) (l : List Str) (h : l.Pairwise (fun x y => strLe x y = true)) :
    (insertStr a l).Pairwise (fun x y => strLe x y = true) := by
  induction l with
  | nil => simp [insertStr]
  | cons b bs ih =>
    rw [List.pairwise_cons] at h
    simp only [insertStr]
    split
    · rename_i hab
      rw [List.pairwise_cons]
      refine ⟨?_, List.pairwise_cons.2 h⟩
      intro x hx
      simp only [List.mem_cons] at hx
      rcases hx with rfl | hx
      · exact hab
      · exact strLe_trans hab (h.1 x hx)
    · rename_i hab
      rw [List.pairwise_cons]
      refine ⟨?_, ih h.2⟩
      intro x hx
      have := (insertStr_perm a bs).mem_iff.1 hx
      simp only [List.mem_cons] at this
      rcases this with rfl | hx
      · rcases strLe_total x b with h' | h'
        · exact absurd h' hab
        · exact h'
      · exact h.1 x hx

theorem sortStrs_sorted (l : List Str) : (sortStrs l).Pairwise (fun x y => strLe x y = true) := by
  induction l with
  | nil => exact List.Pairwise.nil
  | cons a l ih => exact insertStr_sorted a _ ih

theorem sorted_perm {l l' : List Str} (h : l.Perm l') : sortStrs l = sortStrs l' := by
  apply List.Perm.eq_of_pairwise (le := fun a b => strLe a b = true)
  · intro a b _ _ h1 h2; exact strLe_antisymm h1 h2
  · exact sortStrs_sorted l
  · exact sortStrs_sorted l'
  · exact ((sortStrs_perm l).trans h).trans (sortStrs_perm l').symm

end CC
