import Verif.Model.Helpers
import Verif.Spec.HelperSpec
import Verif.Props.CliTree
import Verif.Props.Quoting
/-!
# C42, C43, C44, C56: helper functions and function names
-/

namespace CC

/-! ## Association lists -/

theorem assocGet_set {α : Type} (d : List (Str × α)) (k : Str) (v : α) (x : Str) :
    assocGet (assocSet d k v) x = if k = x then some v else assocGet d x := by
  induction d with
  | nil => simp [assocSet, assocGet]
  | cons e r ih =>
    obtain ⟨k', v'⟩ := e
    simp only [assocSet]
    by_cases h : k' = k
    · subst h; simp only [if_true, assocGet]; split <;> rfl
    · rw [if_neg h]
      simp only [assocGet, ih]
      by_cases h2 : k' = x
      · subst h2; simp [Ne.symm h]
      · simp [h2]

theorem assocGet_none {α : Type} (d : List (Str × α)) (x : Str) : assocGet d x = none ↔ x ∉ d.map (·.1) := by
  induction d with
  | nil => simp [assocGet]
  | cons e r ih =>
    obtain ⟨k', v'⟩ := e
    simp only [assocGet, List.map_cons, List.mem_cons, not_or]
    by_cases h : k' = x
    · simp [h]
    · simp [h, ih, Ne.symm h]

theorem assocGet_mem {α : Type} {d : List (Str × α)} {x : Str} {v : α} (h : assocGet d x = some v) : (x, v) ∈ d := by
  induction d with
  | nil => simp [assocGet] at h
  | cons e r ih =>
    obtain ⟨k', v'⟩ := e
    simp only [assocGet] at h
    split at h
    · rename_i hk; cases h; subst hk; simp
    · exact List.mem_cons_of_mem _ (ih h)

theorem assocSet_new {α : Type} {d : List (Str × α)} {k : Str} (v : α) (h : assocGet d k = none) :
    assocSet d k v = d ++ [(k, v)] := by
  induction d with
  | nil => rfl
  | cons e r ih =>
    obtain ⟨k', v'⟩ := e
    simp only [assocGet] at h
    split at h
    · cases h
    · rename_i hk
      simp [assocSet, hk, ih h]

theorem assocSet_keys {α : Type} {d : List (Str × α)} {k : Str} (v : α) {v0 : α} (h : assocGet d k = some v0) :
    (assocSet d k v).map (·.1) = d.map (·.1) := by
  induction d with
  | nil => simp [assocGet] at h
  | cons e r ih =>
    obtain ⟨k', v'⟩ := e
    simp only [assocGet] at h
    simp only [assocSet]
    split at h
    · rename_i hk; simp [hk]
    · rename_i hk; simp [hk, ih h]

theorem assocGet_of_mem {α : Type} {d : List (Str × α)} (hn : (d.map (·.1)).Nodup) {x : Str} {v : α}
    (h : (x, v) ∈ d) : assocGet d x = some v := by
  induction d with
  | nil => simp at h
  | cons e r ih =>
    obtain ⟨k', v'⟩ := e
    simp only [List.map_cons, List.nodup_cons] at hn
    simp only [List.mem_cons, Prod.mk.injEq] at h
    simp only [assocGet]
    rcases h with ⟨rfl, rfl⟩ | h
    · simp
    · have : k' ≠ x := by
        rintro rfl
        exact hn.1 (List.mem_map.2 ⟨_, h, rfl⟩)
      rw [if_neg this]
      exact ih hn.2 h

/-! ## C42: dynamic functions -/

/-- The names that are tried, in order. -/
def candidate (base : Str) : Nat → Str
  | 0 => base
  | n + 1 => base ++ natStr n

theorem natStr_ne_nil (n : Nat) : natStr n ≠ [] := by
  intro h
  have h1 := Nat.ofDigitChars_toDigits (b := 10) (n := n) (by decide) (by decide)
  unfold natStr at h
  have h0 : n = 0 := by
    rw [h] at h1
    simpa [Nat.ofDigitChars] using h1.symm
  subst h0
  exact absurd h (by decide)

theorem candidate_inj (base : Str) {i j : Nat} (h : candidate base i = candidate base j) : i = j := by
  cases i with
  | zero => cases j with
    | zero => rfl
    | succ j => simp [candidate, natStr_ne_nil] at h
  | succ i => cases j with
    | zero => simp [candidate, natStr_ne_nil] at h
    | succ j =>
      simp only [candidate, List.append_cancel_left_eq] at h
      rw [natStr_inj h]

theorem nodup_length_le {α : Type} [DecidableEq α] {l m : List α} (hl : l.Nodup) (h : ∀ x ∈ l, x ∈ m) : l.length ≤ m.length := by
  induction l generalizing m with
  | nil => simp
  | cons a l ih =>
    simp only [List.nodup_cons] at hl
    have ha : a ∈ m := h a (by simp)
    have := ih (m := m.erase a) hl.2 (by
      intro x hx
      have hne : x ≠ a := by rintro rfl; exact hl.1 hx
      exact (List.mem_erase_of_ne hne).2 (h x (by simp [hx])))
    rw [List.length_erase_of_mem ha] at this
    have : 0 < m.length := List.length_pos_of_mem ha
    simp; omega

/-- Among the first `n + 1` candidates one is not in a list of `n` names. -/
theorem candidate_free (base : Str) (taken : List Str) : ∃ i, i ≤ taken.length ∧ candidate base i ∉ taken := by
  apply Classical.byContradiction
  intro hcon
  have hall : ∀ i, i ≤ taken.length → candidate base i ∈ taken := by
    intro i hi
    apply Classical.byContradiction
    intro h
    exact hcon ⟨i, hi, h⟩
  have hn : ((List.range (taken.length + 1)).map (candidate base)).Nodup := by
    unfold List.Nodup
    rw [List.pairwise_map]
    exact List.Pairwise.imp (fun h h' => h (candidate_inj base h')) List.nodup_range
  have := nodup_length_le hn (m := taken) (by
    intro x hx
    obtain ⟨i, hi, rfl⟩ := List.mem_map.1 hx
    exact hall i (by simpa [Nat.lt_succ_iff] using hi))
  simp at this
  omega

theorem nameLoop_spec (base : Str) (taken : List Str) (i : Nat) (hi : candidate base i ∉ taken)
    (num : Nat) (hle : num ≤ i) (hmin : ∀ j, num ≤ j → j < i → candidate base j ∈ taken) (fuel : Nat)
    (hf : i - num < fuel) : nameLoop base taken fuel num (candidate base num) = some (candidate base i) := by
  induction fuel generalizing num with
  | zero => omega
  | succ fuel ih =>
    unfold nameLoop
    by_cases h : num = i
    · subst h
      rw [if_neg (by simpa using hi)]
    · rw [if_pos (by simpa using hmin num (Nat.le_refl _) (by omega))]
      exact ih (num + 1) (by omega) (fun j h1 h2 => hmin j (by omega) h2) (by omega)

theorem exists_least (p : Nat → Prop) (n : Nat) (h : p n) : ∃ m, m ≤ n ∧ p m ∧ ∀ j, j < m → ¬ p j := by
  induction n using Nat.strongRecOn with
  | ind n ih =>
    by_cases hex : ∃ j, j < n ∧ p j
    · obtain ⟨j, hj, hp⟩ := hex
      obtain ⟨m, h1, h2, h3⟩ := ih j hj hp
      exact ⟨m, by omega, h2, h3⟩
    · exact ⟨n, Nat.le_refl _, h, fun j hj hp => hex ⟨j, hj, hp⟩⟩

/-- **C42**: the search for a name ends. It tries the wanted name, then the name followed by 0, 1, 2
and so on, and returns the first that is not taken, after at most as many steps as there are names
taken. -/
theorem C42_search (base : Str) (dyn : List (Str × Str)) : ∃ i, i ≤ dyn.length ∧
    candidate base i ∉ dyn.map (·.2) ∧ (∀ j, j < i → candidate base j ∈ dyn.map (·.2)) ∧
    ∀ fuel, dyn.length < fuel → dynamicFuncname fuel base dyn = some (candidate base i) := by
  obtain ⟨n, hn, hfree⟩ := candidate_free base (dyn.map (·.2))
  obtain ⟨i, h1, h2, h3⟩ := exists_least (fun i => candidate base i ∉ dyn.map (·.2)) n hfree
  simp only [List.length_map] at hn
  refine ⟨i, by omega, h2, fun j hj => by simpa using h3 j hj, fun fuel hf => ?_⟩
  exact nameLoop_spec base _ i h2 0 (by omega) (fun j _ hj => by simpa using h3 j hj) fuel (by omega)

/-- Codes and names are unique in the dictionary. -/
def DynOk (dyn : List (Str × Str)) : Prop := (dyn.map (·.1)).Nodup ∧ (dyn.map (·.2)).Nodup

theorem addDynamic_spec (fuel : Nat) (base code : Str) (dyn : List (Str × Str)) (h : DynOk dyn) (hf : dyn.length < fuel) :
    ∃ n dyn', addDynamic fuel base code dyn = some (n, dyn') ∧ DynOk dyn' ∧ assocGet dyn' code = some n ∧
      dyn'.length ≤ dyn.length + 1 ∧ (∀ c m, assocGet dyn c = some m → assocGet dyn' c = some m) ∧
      (∀ c, c ∈ dyn'.map (·.1) ↔ c ∈ dyn.map (·.1) ∨ c = code) := by
  unfold addDynamic
  cases hg : assocGet dyn code with
  | some n =>
    refine ⟨n, dyn, rfl, h, hg, by omega, fun _ _ hc => hc, ?_⟩
    intro c
    constructor
    · exact Or.inl
    · rintro (hc | rfl)
      · exact hc
      · exact List.mem_map.2 ⟨_, assocGet_mem hg, rfl⟩
  | none =>
    obtain ⟨i, _, hfree, _, hs⟩ := C42_search base dyn
    simp only [hs fuel hf, Option.map_some]
    refine ⟨_, _, rfl, ?_, ?_, ?_, ?_, ?_⟩
    · rw [assocSet_new _ hg]
      unfold DynOk
      simp only [List.map_append, List.map_cons, List.map_nil, List.nodup_append, List.nodup_cons, List.not_mem_nil,
        not_false_eq_true, List.nodup_nil, and_self, List.mem_cons, or_false, true_and]
      refine ⟨⟨h.1, ?_⟩, h.2, ?_⟩
      · rintro a ha b rfl rfl
        exact (assocGet_none dyn a).1 hg ha
      · rintro a ha b rfl rfl
        exact hfree ha
    · rw [assocGet_set]; simp
    · rw [assocSet_new _ hg]; simp
    · intro c m hc
      rw [assocGet_set]
      have : code ≠ c := by rintro rfl; rw [hg] at hc; cases hc
      simp [this, hc]
    · intro c
      rw [assocSet_new _ hg]; simp [eq_comm]

theorem addDynamics_spec (calls dyn : List (Str × Str)) (h : DynOk dyn) (fuel : Nat)
    (hf : dyn.length + calls.length ≤ fuel) :
    ∃ names dyn', addDynamics fuel dyn calls = some (names, dyn') ∧ DynOk dyn' ∧
      (∀ c m, assocGet dyn c = some m → assocGet dyn' c = some m) ∧
      (∀ c, c ∈ dyn'.map (·.1) ↔ c ∈ dyn.map (·.1) ∨ c ∈ calls.map (·.2)) ∧
      names.map some = calls.map (fun c => assocGet dyn' c.2) := by
  induction calls generalizing dyn with
  | nil => exact ⟨[], dyn, rfl, h, fun _ _ hc => hc, by simp, rfl⟩
  | cons c calls ih =>
    obtain ⟨base, code⟩ := c
    simp only [List.length_cons] at hf
    obtain ⟨n, dyn1, e1, ok1, g1, l1, k1, m1⟩ := addDynamic_spec fuel base code dyn h (by omega)
    obtain ⟨names, dyn2, e2, ok2, k2, m2, n2⟩ := ih dyn1 ok1 (by omega)
    refine ⟨n :: names, dyn2, by simp [addDynamics, e1, e2], ok2, fun c m hc => k2 c m (k1 c m hc), ?_, ?_⟩
    · intro c
      rw [m2, m1]
      simp [or_assoc]
    · simp [n2, k2 code n g1]

theorem snd_nodup {d : List (Str × Str)} (h : (d.map (·.2)).Nodup) {a b n : Str} (ha : (a, n) ∈ d) (hb : (b, n) ∈ d) :
    a = b := by
  induction d with
  | nil => simp at ha
  | cons e d ih =>
    obtain ⟨x, y⟩ := e
    simp only [List.map_cons, List.nodup_cons] at h
    simp only [List.mem_cons, Prod.mk.injEq] at ha hb
    rcases ha with ⟨rfl, rfl⟩ | ha <;> rcases hb with ⟨rfl, hb⟩ | hb
    · rfl
    · exact absurd (List.mem_map.2 ⟨_, hb, rfl⟩) h.1
    · subst hb; exact absurd (List.mem_map.2 ⟨_, ha, rfl⟩) h.1
    · exact ih h.2 ha hb

/-- **C42**: take any sequence of `add_dynamic_func` calls (each with the name wanted for its context
and with its code) on a new object. The calls end. Two calls return the same name exactly if they gave
the same code. In the end every code that was given is stored exactly once, under the name returned,
and no name is used twice. -/
theorem C42_names (calls : List (Str × Str)) : ∃ fuel0 names dyn, ∀ fuel, fuel0 ≤ fuel →
    addDynamics fuel [] calls = some (names, dyn) ∧ names.length = calls.length ∧
    (∀ (i j : Nat) (bi ci bj cj ni nj : Str), calls[i]? = some (bi, ci) → calls[j]? = some (bj, cj) → names[i]? = some ni →
      names[j]? = some nj → (ni = nj ↔ ci = cj)) ∧
    (dyn.map (·.1)).Nodup ∧ (dyn.map (·.2)).Nodup ∧ (∀ c, c ∈ dyn.map (·.1) ↔ c ∈ calls.map (·.2)) ∧
    (∀ (i : Nat) (b c n : Str), calls[i]? = some (b, c) → names[i]? = some n → (c, n) ∈ dyn) := by
  have hok : DynOk [] := ⟨List.nodup_nil, List.nodup_nil⟩
  obtain ⟨names, dyn, e, ok, _, m, n⟩ := addDynamics_spec calls [] hok calls.length (by simp)
  refine ⟨calls.length, names, dyn, ?_⟩
  intro fuel hf
  obtain ⟨names', dyn', e', _, _, _, _⟩ := addDynamics_spec calls [] hok fuel (by simpa using hf)
  have hsame : ∀ (cs d : List (Str × Str)) f f' r r', f ≤ f' → addDynamics f d cs = some r → addDynamics f' d cs = some r' → r = r' := by
    intro cs
    induction cs with
    | nil => intro d f f' r r' _ h1 h2; simp only [addDynamics] at h1 h2; rw [← Option.some.inj h1, ← Option.some.inj h2]
    | cons c cs ih =>
      intro d f f' r r' hff h1 h2
      obtain ⟨b, c⟩ := c
      have hloop : ∀ (f f' num : Nat) (cand x y : Str) (b : Str) (t : List Str), f ≤ f' → nameLoop b t f num cand = some x →
          nameLoop b t f' num cand = some y → x = y := by
        intro f
        induction f with
        | zero => intro f' num cand x y b t _ h1 _; simp [nameLoop] at h1
        | succ f ihf =>
          intro f' num cand x y b t hl h1 h2
          cases f' with
          | zero => omega
          | succ f' =>
            unfold nameLoop at h1 h2
            split at h1
            · rename_i hc; rw [if_pos hc] at h2
              exact ihf f' _ _ x y b t (by omega) h1 h2
            · rename_i hc; rw [if_neg hc] at h2
              rw [← Option.some.inj h1, ← Option.some.inj h2]
      have hadd : ∀ x y, addDynamic f b c d = some x → addDynamic f' b c d = some y → x = y := by
        intro x y hx hy
        unfold addDynamic at hx hy
        cases hg : assocGet d c with
        | some m => simp only [hg] at hx hy; rw [← Option.some.inj hx, ← Option.some.inj hy]
        | none =>
          simp only [hg, Option.map_eq_some_iff] at hx hy
          obtain ⟨p, hp, rfl⟩ := hx
          obtain ⟨q, hq, rfl⟩ := hy
          rw [hloop f f' _ _ p q b _ hff hp hq]
      simp only [addDynamics] at h1 h2
      cases hx : addDynamic f b c d with
      | none => rw [hx] at h1; cases h1
      | some x =>
        cases hy : addDynamic f' b c d with
        | none => rw [hy] at h2; cases h2
        | some y =>
          rw [hx] at h1; rw [hy] at h2
          have := hadd x y hx hy
          subst this
          simp only [Option.map_eq_some_iff] at h1 h2
          obtain ⟨p, hp, rfl⟩ := h1
          obtain ⟨q, hq, rfl⟩ := h2
          rw [ih _ _ _ p q hff hp hq]
  have heq := hsame calls [] calls.length fuel _ _ hf e e'
  have hlen : names.length = calls.length := by simpa using congrArg List.length n
  have hget : ∀ (i : Nat) (b c m : Str), calls[i]? = some (b, c) → names[i]? = some m → (c, m) ∈ dyn := by
    intro i b c m hc hm
    have := congrArg (fun l => l[i]?) n
    simp only [List.getElem?_map, hc, hm, Option.map_some, Option.some.injEq] at this
    exact assocGet_mem this.symm
  refine ⟨by rw [e', ← heq], hlen, ?_, ok.1, ok.2, fun c => by simpa using m c, hget⟩
  intro i j bi ci bj cj ni nj h1 h2 h3 h4
  have m1 := hget i bi ci ni h1 h3
  have m2 := hget j bj cj nj h2 h4
  constructor
  · rintro rfl; exact snd_nodup ok.2 m1 m2
  · rintro rfl
    have := assocGet_of_mem ok.1 m1
    rw [assocGet_of_mem ok.1 m2] at this
    exact (Option.some.inj this).symm

/-- Three calls, two wanting the same name for different code. -/
theorem C42_example : addDynamics 10 [] [(S "_p__--x", S "A"), (S "_p__--x", S "B"), (S "_p__--y", S "A")] =
    some ([S "_p__--x", S "_p__--x0", S "_p__--x"], [(S "A", S "_p__--x"), (S "B", S "_p__--x0")]) := by
  decide +kernel

/-- **C42 (wanted names).** Positionals of a command without a metavar want different names. -/
theorem C42_positional_names (pre : Str) (names : List Str) (p q : Pos) (m n : Nat)
    (hp : p.metavar = none ∨ p.metavar = some []) (hq : q.metavar = none ∨ q.metavar = some []) :
    contextFuncname pre names (.pos p m) = contextFuncname pre names (.pos q n) ↔ m = n := by
  have h : ∀ (r : Pos) (k : Nat), (r.metavar = none ∨ r.metavar = some []) → contextFuncname pre names (.pos r k) =
      makeIdentifier (joinWith ['_'] (pre :: names.tail)) ++ S "__" ++ (S "arg" ++ natStr k) := by
    intro r k hr
    rcases hr with hr | hr <;> simp [contextFuncname, hr]
  rw [h p m hp, h q n hq]
  constructor
  · intro e
    exact natStr_inj (List.append_cancel_left (List.append_cancel_left e))
  · rintro rfl; rfl

/-- A gap: names of dynamic functions are not compared with those of the built-in helpers. A
positional called `exec` whose completion needs a function of its own gets the name of the helper
`exec`, so the script defines the name twice. -/
theorem C42_helper_clash :
    contextFuncname (S "_prog") [S "prog"] (.pos { number := 1, metavar := some (S "exec") } 1) =
      realName (S "_prog") (S "exec") ∧
    ∃ used names dyn, useFunction bashRepo 10 (S "exec") [] [] = .ok used ∧
      addDynamics 10 [] [(contextFuncname (S "_prog") [S "prog"]
        (.pos { number := 1, metavar := some (S "exec") } 1), S "code")] = some (names, dyn) ∧
      emittedNames (S "_prog") used dyn = [S "_prog__exec", S "_prog__exec"] := by
  refine ⟨by decide +kernel, [(S "exec", [])], [S "_prog__exec"], [(S "code", S "_prog__exec")], ?_, ?_, ?_⟩
  · rfl
  · decide +kernel
  · decide +kernel

/-! ## C43 -/

/-- The macros recorded for a function. -/
def definesOf (used : List (Str × List Str)) (f : Str) : List Str := (assocGet used f).getD []

theorem addUse_spec (used : List (Str × List Str)) (name : Str) (ds : List Str) (hn : (used.map (·.1)).Nodup) :
    ((addUse used name ds).map (·.1)).Nodup ∧
    (∀ f, f ∈ (addUse used name ds).map (·.1) ↔ f ∈ used.map (·.1) ∨ f = name) ∧
    (∀ f x, x ∈ definesOf (addUse used name ds) f ↔ x ∈ definesOf used f ∨ (f = name ∧ x ∈ ds)) := by
  unfold addUse
  cases hg : assocGet used name with
  | none =>
    have hno := (assocGet_none used name).1 hg
    simp only
    refine ⟨?_, ?_, ?_⟩
    · rw [assocSet_new _ hg]
      simp only [List.map_append, List.map_cons, List.map_nil, List.nodup_append, List.nodup_cons, List.not_mem_nil,
        not_false_eq_true, List.nodup_nil, and_self, List.mem_cons, or_false, true_and]
      refine ⟨hn, ?_⟩
      rintro a ha b rfl rfl
      exact hno ha
    · intro f; rw [assocSet_new _ hg]; simp [eq_comm]
    · intro f x
      simp only [definesOf, assocGet_set]
      by_cases h : name = f
      · subst h; simp [hg]
      · simp [h, Ne.symm h]
  | some d0 =>
    simp only
    refine ⟨?_, ?_, ?_⟩
    · rw [assocSet_keys _ hg]; exact hn
    · intro f
      rw [assocSet_keys _ hg]
      constructor
      · exact Or.inl
      · rintro (h | rfl)
        · exact h
        · exact List.mem_map.2 ⟨_, assocGet_mem hg, rfl⟩
    · intro f x
      simp only [definesOf, assocGet_set]
      by_cases h : name = f
      · subst h; simp [hg]
      · simp [h, Ne.symm h]

theorem needs_trans {deps : Str → Option (List Str)} {f g h : Str} (h1 : Needs deps f g) (h2 : Needs deps g h) :
    Needs deps f h := by
  induction h2 with
  | refl => exact h1
  | step _ hd hm ih => exact .step ih hd hm

theorem needs_head {deps : Str → Option (List Str)} {f g : Str} (h : Needs deps f g) :
    f = g ∨ ∃ ds d, deps f = some ds ∧ d ∈ ds ∧ Needs deps d g := by
  induction h with
  | refl => exact Or.inl rfl
  | step _ hd hm ih =>
    rcases ih with rfl | ⟨ds, d, h1, h2, h3⟩
    · exact Or.inr ⟨_, _, hd, hm, .refl⟩
    · exact Or.inr ⟨ds, d, h1, h2, .step h3 hd hm⟩

/-- What one call, or the calls for several names without macros, do. -/
def UseStep (repo : List (Str × List Str)) (names : Str → Prop) (asked : Str → Str → Prop)
    (used used' : List (Str × List Str)) : Prop :=
  (used'.map (·.1)).Nodup ∧
  (∀ f, f ∈ used'.map (·.1) ↔ f ∈ used.map (·.1) ∨ ∃ n, names n ∧ Needs (assocGet repo) n f) ∧
  (∀ f x, x ∈ definesOf used' f ↔ x ∈ definesOf used f ∨ asked f x)

theorem useFunction_spec (repo : List (Str × List Str)) (rank : Str → Nat)
    (hr : ∀ f ds, assocGet repo f = some ds → ∀ d ∈ ds, (assocGet repo d).isSome = true)
    (hacyc : ∀ f ds, assocGet repo f = some ds → ∀ d ∈ ds, rank d < rank f) (depth : Nat) :
    ∀ name ds used, rank name < depth → (assocGet repo name).isSome = true → (used.map (·.1)).Nodup →
      ∃ used', useFunction repo depth name ds used = .ok used' ∧
        UseStep repo (· = name) (fun f x => f = name ∧ x ∈ ds) used used' := by
  induction depth with
  | zero => intro name ds used h; omega
  | succ depth ih =>
    intro name ds used hrank hsome hn
    obtain ⟨deps, hdeps⟩ := Option.isSome_iff_exists.1 hsome
    obtain ⟨a1, a2, a3⟩ := addUse_spec used name ds hn
    have key : ∀ (l : List Str) (u : List (Str × List Str)), (∀ d ∈ l, d ∈ deps) → (u.map (·.1)).Nodup →
        ∃ used', l.foldlM (fun u d => useFunction repo depth d [] u) u = .ok used' ∧
          UseStep repo (· ∈ l) (fun _ _ => False) u used' := by
      intro l
      induction l with
      | nil => intro u _ hu; exact ⟨u, rfl, hu, by simp, by simp⟩
      | cons d l ihl =>
        intro u hl hu
        have hd := hl d (by simp)
        obtain ⟨u1, e1, n1, m1, x1⟩ := ih d [] u (by have := hacyc name deps hdeps d hd; omega) (hr name deps hdeps d hd) hu
        obtain ⟨u2, e2, n2, m2, x2⟩ := ihl u1 (fun x hx => hl x (by simp [hx])) n1
        refine ⟨u2, ?_, n2, ?_, ?_⟩
        · rw [List.foldlM_cons, e1]; exact e2
        · intro f
          rw [m2, m1]
          simp only [exists_eq_left, List.mem_cons]
          constructor
          · rintro ((h | h) | ⟨n, hn, hf⟩)
            · exact Or.inl h
            · exact Or.inr ⟨d, Or.inl rfl, h⟩
            · exact Or.inr ⟨n, Or.inr hn, hf⟩
          · rintro (h | ⟨n, rfl | hn, hf⟩)
            · exact Or.inl (Or.inl h)
            · exact Or.inl (Or.inr hf)
            · exact Or.inr ⟨n, hn, hf⟩
        · intro f x; rw [x2, x1]; simp
    obtain ⟨u, e, n, m, x⟩ := key deps (addUse used name ds) (fun _ h => h) a1
    refine ⟨u, ?_, n, ?_, ?_⟩
    · unfold useFunction; simp only [hdeps]; exact e
    · intro f
      rw [m, a2]
      simp only [exists_eq_left]
      constructor
      · rintro ((h | rfl) | ⟨d, hd, hf⟩)
        · exact Or.inl h
        · exact Or.inr .refl
        · exact Or.inr (needs_trans (.step .refl hdeps hd) hf)
      · rintro (h | h)
        · exact Or.inl (Or.inl h)
        · rcases needs_head h with rfl | ⟨ds', d, h1, h2, h3⟩
          · exact Or.inl (Or.inr rfl)
          · rw [hdeps] at h1
            cases h1
            exact Or.inr ⟨d, h2, h3⟩
    · intro f y; rw [x, a3]; simp

/-- **C43**: take a repository whose dependencies exist and do not go round in circles, and any
sequence of `use_function` calls for functions of the repository. With a recursion limit above the
depth of the repository the calls succeed. The functions that are emitted are exactly those asked for
and those they depend on, directly or not, each once, and the macros of a function are exactly those
given in calls for it. -/
theorem C43_closure (repo : List (Str × List Str)) (rank : Str → Nat) (hr : SoundRepo (assocGet repo) rank)
    (depth : Nat) (calls : List (Str × List Str))
    (hc : ∀ c ∈ calls, (assocGet repo c.1).isSome = true ∧ rank c.1 < depth) :
    ∃ used, useFunctions repo depth calls = .ok used ∧ (used.map (·.1)).Nodup ∧
      (∀ f, f ∈ used.map (·.1) ↔ ∃ c ∈ calls, Needs (assocGet repo) c.1 f) ∧
      (∀ f ds, (f, ds) ∈ used → ∀ x, x ∈ ds ↔ ∃ c ∈ calls, c.1 = f ∧ x ∈ c.2) := by
  have key : ∀ (calls : List (Str × List Str)) (u : List (Str × List Str)), (u.map (·.1)).Nodup →
      (∀ c ∈ calls, (assocGet repo c.1).isSome = true ∧ rank c.1 < depth) →
      ∃ used, calls.foldlM (fun u c => useFunction repo depth c.1 c.2 u) u = .ok used ∧ (used.map (·.1)).Nodup ∧
      (∀ f, f ∈ used.map (·.1) ↔ f ∈ u.map (·.1) ∨ ∃ c ∈ calls, Needs (assocGet repo) c.1 f) ∧
      (∀ f x, x ∈ definesOf used f ↔ x ∈ definesOf u f ∨ ∃ c ∈ calls, c.1 = f ∧ x ∈ c.2) := by
    intro calls
    induction calls with
    | nil => intro u hu _; exact ⟨u, rfl, hu, by simp, by simp⟩
    | cons c calls ih =>
      intro u hu hcs
      obtain ⟨u1, e1, n1, m1, x1⟩ := useFunction_spec repo rank hr.closed hr.falls depth c.1 c.2 u
        (hcs c (by simp)).2 (hcs c (by simp)).1 hu
      obtain ⟨u2, e2, n2, m2, x2⟩ := ih u1 n1 (fun x hx => hcs x (by simp [hx]))
      refine ⟨u2, ?_, n2, ?_, ?_⟩
      · rw [List.foldlM_cons, e1]; exact e2
      · intro f; rw [m2, m1]; simp [or_assoc]
      · intro f x; rw [x2, x1]; simp [or_assoc, eq_comm]
  obtain ⟨used, e, n, m, x⟩ := key calls [] (by simp) hc
  refine ⟨used, e, n, by simpa using m, ?_⟩
  intro f ds hf y
  have := x f y
  simp only [definesOf, assocGet_of_mem n hf, Option.getD_some, assocGet, Option.getD_none, List.not_mem_nil, false_or] at this
  exact this

/-- **C43**: asking for a function that is not in the repository is an error. -/
theorem C43_unknown (repo : List (Str × List Str)) (depth : Nat) (name : Str) (ds : List Str)
    (used : List (Str × List Str)) (h : assocGet repo name = none) :
    useFunction repo depth name ds used = .error .crash := by
  cases depth with
  | zero => rfl
  | succ d => unfold useFunction; rw [h]

theorem foldlM_ext {α β : Type} (f g : α → β → Except Err α) (h : ∀ a b a', f a b = .ok a' → g a b = .ok a')
    (l : List β) : ∀ a a', l.foldlM f a = .ok a' → l.foldlM g a = .ok a' := by
  induction l with
  | nil => exact fun _ _ h => h
  | cons b l ih =>
    intro a a' hf
    rw [List.foldlM_cons] at hf ⊢
    cases h1 : f a b with
    | error e => rw [h1] at hf; cases hf
    | ok a1 =>
      rw [h1] at hf
      rw [h a b a1 h1]
      exact ih a1 a' hf

/-- **C43**: adding functions under new names later does not change the outcome of calls that
succeeded. -/
theorem C43_later_additions (repo repo' : List (Str × List Str))
    (hext : ∀ f ds, assocGet repo f = some ds → assocGet repo' f = some ds) (depth : Nat) :
    ∀ name ds used used', useFunction repo depth name ds used = .ok used' →
      useFunction repo' depth name ds used = .ok used' := by
  induction depth with
  | zero => intro name ds used used' h; cases h
  | succ depth ih =>
    intro name ds used used' h
    unfold useFunction at h ⊢
    cases hg : assocGet repo name with
    | none => rw [hg] at h; cases h
    | some deps =>
      rw [hext name deps hg]
      rw [hg] at h
      exact foldlM_ext _ _ (fun u d u' => ih d [] u u') deps _ _ h

/-- A repository where dependencies are functions without dependencies is sound. -/
theorem flat_sound (repo : List (Str × List Str)) (hn : (repo.map (·.1)).Nodup)
    (h : ∀ e ∈ repo, ∀ d ∈ e.2, (d, ([] : List Str)) ∈ repo) :
    SoundRepo (assocGet repo) (fun f => if assocGet repo f = some [] then 0 else 1) := by
  constructor
  · intro f ds hf d hd
    rw [assocGet_of_mem hn (h _ (assocGet_mem hf) d hd)]; rfl
  · intro f ds hf d hd
    have h1 := assocGet_of_mem hn (h _ (assocGet_mem hf) d hd)
    have h2 : ds ≠ [] := by rintro rfl; simp at hd
    rw [h1, hf]
    simp [h2]

/-- **C43**: the hypotheses hold for the repositories of all three shells; a recursion limit of 2
is enough. -/
theorem C43_repositories : ∃ r1 r2 r3, SoundRepo (assocGet bashRepo) r1 ∧ SoundRepo (assocGet zshRepo) r2 ∧
    SoundRepo (assocGet fishRepo) r3 ∧ ∀ f, r1 f < 2 ∧ r2 f < 2 ∧ r3 f < 2 := by
  refine ⟨_, _, _, flat_sound bashRepo (by decide +kernel) (by decide +kernel),
    flat_sound zshRepo (by decide +kernel) (by decide +kernel),
    flat_sound fishRepo (by decide +kernel) (by decide +kernel), ?_⟩
  intro f
  refine ⟨?_, ?_, ?_⟩ <;> (split <;> omega)

/-- There is no check for circles: a function that depends on itself exhausts any recursion limit. -/
theorem C43_circle (depth : Nat) (ds : List Str) (used : List (Str × List Str)) :
    useFunction [(S "f", [S "f"])] depth (S "f") ds used = .error .crash := by
  induction depth generalizing ds used with
  | zero => rfl
  | succ d ih =>
    unfold useFunction
    simp only [assocGet, if_true, List.foldlM_cons, ih]
    rfl

/-- Using two functions, one of them with a macro and with dependencies. -/
theorem C43_example : useFunctions bashRepo 2 [(S "dequote", []), (S "key_value_list_exec", [S "debug"])] =
    .ok [(S "dequote", []), (S "key_value_list_exec", [S "debug"]), (S "exec", [])] := by
  rfl

/-! ## C44 -/

/-- Nothing, or an underscore followed by a character other than an underscore, and so on. -/
def Tail (t : Str) : Prop := t = [] ∨ ∃ c r, t = '_' :: c :: r ∧ c ≠ '_' ∧ Ident.noDoubleUnderscore t = true

theorem collapse_underscore (s : Str) :
    (∃ r, collapseUnderscores s = '_' :: r ∧ collapseUnderscores ('_' :: s) = collapseUnderscores s) ∨
    ((∀ r, collapseUnderscores s ≠ '_' :: r) ∧ collapseUnderscores ('_' :: s) = '_' :: collapseUnderscores s) := by
  have h : collapseUnderscores ('_' :: s) = match collapseUnderscores s with
      | '_' :: r => '_' :: r
      | r => '_' :: r := by
    rw [collapseUnderscores.eq_def]; simp only [if_true]; rfl
  rw [h]
  split
  · rename_i r heq; exact Or.inl ⟨r, heq, heq.symm⟩
  · rename_i hne; exact Or.inr ⟨fun r hr => hne r hr, rfl⟩

theorem collapse_head (c : Char) (s : Str) : ∃ r, collapseUnderscores (c :: s) = c :: r := by
  by_cases hc : c = '_'
  · subst hc
    rcases collapse_underscore s with ⟨r, h1, h2⟩ | ⟨_, h2⟩
    · exact ⟨r, by rw [h2, h1]⟩
    · exact ⟨_, h2⟩
  · exact ⟨collapseUnderscores s, by rw [collapseUnderscores.eq_def]; simp only [if_neg hc]⟩

theorem collapse_append_inj (p t1 t2 : Str) (h1 : Tail t1) (h2 : Tail t2)
    (h : collapseUnderscores (p ++ t1) = collapseUnderscores (p ++ t2)) : t1 = t2 := by
  have tid : ∀ t, Tail t → collapseUnderscores t = t := by
    rintro t (rfl | ⟨c, r, rfl, _, hn⟩)
    · rfl
    · exact collapse_id hn
  induction p with
  | nil =>
    simp only [List.nil_append, tid t1 h1, tid t2 h2] at h
    exact h
  | cons c p ih =>
    by_cases hc : c = '_'
    · subst hc
      have mixed : ∀ t1 t2 : Str, Tail t1 → Tail t2 → (∃ r, collapseUnderscores (p ++ t1) = '_' :: r) →
          (∀ r, collapseUnderscores (p ++ t2) ≠ '_' :: r) →
          collapseUnderscores (p ++ t1) = '_' :: collapseUnderscores (p ++ t2) → t1 = t2 := by
        intro t1 t2 h1 h2 ⟨r, hr⟩ hne he
        cases p with
        | nil =>
          simp only [List.nil_append, tid t1 h1, tid t2 h2] at he hne
          rcases h2 with rfl | ⟨c, r, rfl, _, _⟩
          · rcases h1 with rfl | ⟨c, r, rfl, _, _⟩
            · rfl
            · simp at he
          · exact absurd rfl (hne _)
        | cons d p =>
          obtain ⟨x, hx⟩ := collapse_head d (p ++ t1)
          obtain ⟨y, hy⟩ := collapse_head d (p ++ t2)
          rw [List.cons_append, hx] at hr
          rw [List.cons_append, hy] at hne
          simp only [List.cons.injEq] at hr
          rw [hr.1] at hne
          exact absurd rfl (hne y)
      simp only [List.cons_append] at h
      rcases collapse_underscore (p ++ t1) with ⟨r1, a1, b1⟩ | ⟨a1, b1⟩ <;>
        rcases collapse_underscore (p ++ t2) with ⟨r2, a2, b2⟩ | ⟨a2, b2⟩ <;> rw [b1, b2] at h
      · exact ih h
      · exact mixed t1 t2 h1 h2 ⟨r1, a1⟩ a2 h
      · exact (mixed t2 t1 h2 h1 ⟨r2, a2⟩ a1 h.symm).symm
      · exact ih (List.cons.inj h).2
    · have e : ∀ s, collapseUnderscores (c :: s) = c :: collapseUnderscores s := by
        intro s; rw [collapseUnderscores.eq_def]; simp only [if_neg hc]
      simp only [List.cons_append, e, List.cons.injEq, true_and] at h
      exact ih h

/-- The part of `make_identifier` before underscores are merged. -/
def cleanId (s : Str) : Str :=
  (s.map (fun c => if c = '-' then '_' else c)).filter (fun c => isAsciiAlnum c || c == '_')

theorem cleanId_append (a b : Str) : cleanId (a ++ b) = cleanId a ++ cleanId b := by simp [cleanId]

theorem cleanId_id {t : Str} (h : ∀ c ∈ t, c.isAlphanum = true ∨ c = '_') : cleanId t = t := by
  induction t with
  | nil => rfl
  | cons c t ih =>
    have h1 := h c (by simp)
    have h2 : cleanId t = t := ih (fun x hx => h x (by simp [hx]))
    unfold cleanId at h2 ⊢
    have hne : c ≠ '-' := by
      rintro rfl
      rcases h1 with h1 | h1
      · exact absurd h1 (by decide)
      · exact absurd h1 (by decide)
    have hk : (isAsciiAlnum c || c == '_') = true := by simpa using h1
    simp only [List.map_cons, hne, if_false, List.filter_cons, hk, if_true, h2]

theorem makeIdentifier_append_inj (p t1 t2 : Str) (h1 : Tail t1) (h2 : Tail t2)
    (a1 : ∀ c ∈ t1, c.isAlphanum = true ∨ c = '_') (a2 : ∀ c ∈ t2, c.isAlphanum = true ∨ c = '_')
    (h : makeIdentifier (p ++ t1) = makeIdentifier (p ++ t2)) : t1 = t2 := by
  have hm : ∀ s, makeIdentifier s = match collapseUnderscores (cleanId s) with
      | [] => []
      | c :: cs => if isAsciiDigit c then '_' :: c :: cs else c :: cs := fun _ => rfl
  apply collapse_append_inj (cleanId p) t1 t2 h1 h2
  rw [hm, hm, cleanId_append, cleanId_append, cleanId_id a1, cleanId_id a2] at h
  have tid : ∀ t, Tail t → collapseUnderscores t = t := by
    rintro t (rfl | ⟨c, r, rfl, _, hn⟩)
    · rfl
    · exact collapse_id hn
  cases hp : cleanId p with
  | nil =>
    rw [hp] at h
    simp only [List.nil_append, tid t1 h1, tid t2 h2] at h ⊢
    have hd : isAsciiDigit '_' = false := by decide
    rcases h1 with rfl | ⟨c, r, rfl, _, _⟩ <;> rcases h2 with rfl | ⟨c', r', rfl, _, _⟩ <;> simp [hd] at h ⊢
    exact h
  | cons d q =>
    rw [hp] at h
    obtain ⟨x, hx⟩ := collapse_head d (q ++ t1)
    obtain ⟨y, hy⟩ := collapse_head d (q ++ t2)
    simp only [List.cons_append, hx, hy] at h ⊢
    by_cases hd : isAsciiDigit d = true
    · simp only [hd, if_true, List.cons.injEq, true_and] at h
      rw [h]
    · simp only [Bool.not_eq_true] at hd
      simpa only [hd, Bool.false_eq_true, if_false] using h

theorem join_underscore (p : Str) (ns : List Str) : joinWith ['_'] (p :: ns) = p ++ ns.flatMap (fun n => '_' :: n) := by
  induction ns generalizing p with
  | nil => simp [joinWith]
  | cons n ns ih =>
    rw [joinWith, ih]
    simp

theorem flat_noDouble (ns : List Str) (h : ∀ n ∈ ns, n ≠ [] ∧ ∀ c ∈ n, c.isAlphanum = true) :
    Tail (ns.flatMap (fun n => '_' :: n)) := by
  have hu : ∀ c : Char, c.isAlphanum = true → c ≠ '_' := by rintro c hc rfl; exact absurd hc (by decide)
  have nd : ∀ (n : Str), (∀ c ∈ n, c.isAlphanum = true) → ∀ r, (r = [] ∨ Ident.noDoubleUnderscore r = true) →
      Ident.noDoubleUnderscore (n ++ r) = true := by
    intro n
    induction n with
    | nil => rintro _ r (rfl | hr); rfl; exact hr
    | cons c n ih =>
      intro hn r hr
      have hc := hu c (hn c (by simp))
      rw [List.cons_append]
      unfold Ident.noDoubleUnderscore
      split
      · rename_i heq; simp only [List.cons.injEq] at heq; exact absurd heq.1 hc
      · rename_i heq; simp only [List.cons.injEq] at heq; rw [← heq.2]; exact ih (fun x hx => hn x (by simp [hx])) r hr
      · rfl
  induction ns with
  | nil => exact Or.inl rfl
  | cons n ns ih =>
    obtain ⟨hne, hn⟩ := h n (by simp)
    cases n with
    | nil => exact absurd rfl hne
    | cons c n =>
      have hc := hu c (hn c (by simp))
      right
      refine ⟨c, n ++ ns.flatMap (fun n => '_' :: n), by simp, hc, ?_⟩
      have ht : Ident.noDoubleUnderscore ((c :: n) ++ ns.flatMap (fun n => '_' :: n)) = true := by
        apply nd _ hn
        rcases ih (fun x hx => h x (by simp [hx])) with h0 | ⟨_, _, _, _, h0⟩
        · exact Or.inl h0
        · exact Or.inr h0
      simp only [List.flatMap_cons, List.cons_append] at ht ⊢
      unfold Ident.noDoubleUnderscore
      split
      · rename_i heq; simp only [List.cons.injEq, true_and] at heq; exact absurd heq.1 hc
      · rename_i heq; simp only [List.cons.injEq] at heq; rw [← heq.2]; exact ht
      · rfl

theorem flat_inj (ns ms : List Str) (hn : ∀ n ∈ ns, '_' ∉ n) (hm : ∀ n ∈ ms, '_' ∉ n)
    (h : ns.flatMap (fun n => '_' :: n) = ms.flatMap (fun n => '_' :: n)) : ns = ms := by
  induction ns generalizing ms with
  | nil => cases ms with
    | nil => rfl
    | cons => simp at h
  | cons n ns ih => cases ms with
    | nil => simp at h
    | cons m ms =>
      simp only [List.flatMap_cons, List.cons_append, List.cons.injEq, true_and] at h
      have key : ∀ (n m r r' : Str), '_' ∉ n → '_' ∉ m → (r = [] ∨ ∃ x, r = '_' :: x) → (r' = [] ∨ ∃ x, r' = '_' :: x) →
          n ++ r = m ++ r' → n = m ∧ r = r' := by
        intro n
        induction n with
        | nil =>
          intro m r r' _ hm hr hr' he
          cases m with
          | nil => exact ⟨rfl, he⟩
          | cons c m =>
            simp only [List.nil_append, List.cons_append] at he
            rcases hr with rfl | ⟨x, rfl⟩
            · cases he
            · simp only [List.cons.injEq] at he; rw [← he.1] at hm; simp at hm
        | cons c n ih =>
          intro m r r' hn hm hr hr' he
          cases m with
          | nil =>
            simp only [List.nil_append, List.cons_append] at he
            rcases hr' with rfl | ⟨x, rfl⟩
            · cases he
            · simp only [List.cons.injEq] at he; rw [he.1] at hn; simp at hn
          | cons d m =>
            simp only [List.cons_append, List.cons.injEq] at he
            simp only [List.mem_cons, not_or] at hn hm
            obtain ⟨h1, h2⟩ := ih m r r' hn.2 hm.2 hr hr' he.2
            exact ⟨by rw [he.1, h1], h2⟩
      have hstart : ∀ l : List Str, l.flatMap (fun n => '_' :: n) = [] ∨ ∃ x, l.flatMap (fun n => '_' :: n) = '_' :: x := by
        intro l; cases l with
        | nil => exact Or.inl rfl
        | cons a l => exact Or.inr ⟨_, rfl⟩
      obtain ⟨h1, h2⟩ := key n m _ _ (hn n (by simp)) (hm m (by simp)) (hstart ns) (hstart ms) h
      rw [h1, ih ms (fun x hx => hn x (by simp [hx])) (fun x hx => hm x (by simp [hx])) h2]

/-- **C44** (partial): in a tree whose subcommand names are made of ASCII letters and digits, different
commands have different completion function names, whatever the prefix. What is missing: names with
other characters, for which the property is false (`C44_collision`). -/
theorem C44_distinct_partial (root : Cmd) (hu : UniqueNames root) (pre suffix : Str) (a b : List Nat) (x y : Cmd)
    (ns ms : List Str) (ha : root.at a = some x) (hb : root.at b = some y)
    (hns : root.namesAt a = some ns) (hms : root.namesAt b = some ms)
    (hn : ∀ n ∈ ns.tail ++ ms.tail, n ≠ [] ∧ ∀ c ∈ n, c.isAlphanum = true)
    (h : completionFuncname pre ns suffix = completionFuncname pre ms suffix) : a = b := by
  apply C19_paths_distinct root hu a b x y ha hb
  rw [hns, hms]
  have e1 := namesAt_head root a ns hns
  have e2 := namesAt_head root b ms hms
  obtain ⟨n1, rfl⟩ : ∃ n1, ns = root.data.prog :: n1 := by
    cases ns with
    | nil => simp at e1
    | cons a b => simp at e1; exact ⟨b, by rw [e1]⟩
  obtain ⟨m1, rfl⟩ : ∃ m1, ms = root.data.prog :: m1 := by
    cases ms with
    | nil => simp at e2
    | cons a b => simp at e2; exact ⟨b, by rw [e2]⟩
  simp only [List.tail_cons, List.mem_append] at hn
  unfold completionFuncname at h
  simp only [List.tail_cons, List.append_cancel_right_eq, join_underscore] at h
  have alnum : ∀ l : List Str, (∀ n ∈ l, n ≠ [] ∧ ∀ c ∈ n, c.isAlphanum = true) →
      ∀ c ∈ l.flatMap (fun n => '_' :: n), c.isAlphanum = true ∨ c = '_' := by
    intro l hl c hc
    obtain ⟨n, hn, hc⟩ := List.mem_flatMap.1 hc
    simp only [List.mem_cons] at hc
    rcases hc with rfl | hc
    · exact Or.inr rfl
    · exact Or.inl ((hl n hn).2 c hc)
  have nou : ∀ l : List Str, (∀ n ∈ l, n ≠ [] ∧ ∀ c ∈ n, c.isAlphanum = true) → ∀ n ∈ l, '_' ∉ n := by
    intro l hl n hn hmem
    exact absurd ((hl n hn).2 _ hmem) (by decide)
  have hl1 := fun n (hx : n ∈ n1) => hn n (Or.inl hx)
  have hl2 := fun n (hx : n ∈ m1) => hn n (Or.inr hx)
  have := makeIdentifier_append_inj pre _ _ (flat_noDouble n1 hl1) (flat_noDouble m1 hl2) (alnum n1 hl1) (alnum m1 hl2) h
  rw [flat_inj n1 m1 (nou n1 hl1) (nou m1 hl2) this]

/-- A command line with subcommands. -/
def cmdWith (name : Str) (ch : List Cmd) : Cmd := .node { prog := name } (some 1) ch

/-- **C44 is false**: the subcommands `a-b` and `a_b` get the same function name, and so do the
subcommand `a_b` and the subcommand `b` of `a`. -/
theorem C44_collision :
    completionFuncname (S "_p") [S "p", S "a-b"] [] = completionFuncname (S "_p") [S "p", S "a_b"] [] ∧
    (let root := cmdWith (S "p") [cmdWith (S "a") [cmdWith (S "b") []], cmdWith (S "a_b") []]
     UniqueNames root ∧ root.namesAt [0, 0] = some [S "p", S "a", S "b"] ∧ root.namesAt [1] = some [S "p", S "a_b"] ∧
     completionFuncname (S "_p") [S "p", S "a", S "b"] [] = completionFuncname (S "_p") [S "p", S "a_b"] []) := by
  refine ⟨by decide +kernel, ?_, rfl, rfl, by decide +kernel⟩
  intro a x h
  match a with
  | [] => cases h; decide
  | [0] => cases h; decide
  | [0, 0] => cases h; decide
  | [1] => cases h; decide
  | 0 :: 0 :: i :: is => simp [cmdWith, Cmd.at] at h
  | 0 :: (i + 1) :: is => simp [cmdWith, Cmd.at] at h
  | 1 :: i :: is => simp [cmdWith, Cmd.at] at h
  | (i + 2) :: is => simp [cmdWith, Cmd.at] at h

/-- A tree that meets the hypotheses. -/
theorem C44_example : completionFuncname (S "_p") [S "p", S "a", S "b2"] [] = S "_p_a_b2" ∧
    (∀ n ∈ [S "p", S "a", S "b2"].tail ++ [S "p", S "a2"].tail, n ≠ [] ∧ ∀ c ∈ n, c.isAlphanum = true) := by
  constructor <;> decide +kernel

/-! ## C56: `replace_function_name` -/

theorem startsWith_split {s p : Str} (h : startsWith s p = true) : ∃ r, s = p ++ r := by
  induction p generalizing s with
  | nil => exact ⟨s, rfl⟩
  | cons c p ih =>
    cases s with
    | nil => simp [startsWith] at h
    | cons d s =>
      simp only [startsWith, Bool.and_eq_true, beq_iff_eq] at h
      obtain ⟨r, hr⟩ := ih h.2
      exact ⟨r, by rw [hr, h.1]; rfl⟩

theorem startsWith_append (p r : Str) : startsWith (p ++ r) p = true := by
  induction p with
  | nil => simp [startsWith]
  | cons c p ih => simp [startsWith, ih]

theorem subWord_skip (w : Char → Bool) (search rep : Str) (a b : Str) (prev : Bool) (ha : ∀ c ∈ a, w c = true) (hp : prev = true) :
    subWord w search rep prev a.length (a ++ b) = subWord w search rep true 0 b := by
  induction a generalizing prev with
  | nil => subst hp; rfl
  | cons c a ih => exact ih (w c) (fun x hx => ha x (by simp [hx])) (ha c (by simp))

/-- A text begins with a run of one class that ends at the end or before a character of the other class. -/
theorem first_run (w : Char → Bool) (s : Str) (hs : s ≠ []) : ∃ b r rest, s = r ++ rest ∧ r ≠ [] ∧
    (∀ c ∈ r, w c = b) ∧ (rest = [] ∨ ∃ d t, rest = d :: t ∧ w d ≠ b) ∧ wordRuns w s = (b, r) :: wordRuns w rest := by
  induction s with
  | nil => exact absurd rfl hs
  | cons c s ih =>
    cases s with
    | nil => exact ⟨w c, [c], [], rfl, by simp, by simp, Or.inl rfl, rfl⟩
    | cons d s =>
      obtain ⟨b, r, rest, h1, h2, h3, h4, h5⟩ := ih (by simp)
      by_cases hb : b = w c
      · refine ⟨b, c :: r, rest, by rw [h1]; rfl, by simp, ?_, h4, ?_⟩
        · intro x hx
          simp only [List.mem_cons] at hx
          rcases hx with rfl | hx
          · exact hb.symm
          · exact h3 x hx
        · rw [wordRuns, h5]; simp only [hb, if_true]
      · refine ⟨w c, [c], d :: s, rfl, by simp, by simp, Or.inr ⟨d, s, rfl, ?_⟩, ?_⟩
        · cases r with
          | nil => exact absurd rfl h2
          | cons e r =>
            simp only [List.cons_append, List.cons.injEq] at h1
            rw [h1.1, h3 e (by simp)]; exact hb
        · rw [wordRuns, h5]; simp only [hb, if_false]

theorem wordRuns_run (w : Char → Bool) (b : Bool) (r rest : Str) (hne : r ≠ []) (hr : ∀ c ∈ r, w c = b)
    (hrest : rest = [] ∨ ∃ d t, rest = d :: t ∧ w d ≠ b) : wordRuns w (r ++ rest) = (b, r) :: wordRuns w rest := by
  induction r with
  | nil => exact absurd rfl hne
  | cons c r ih =>
    cases r with
    | nil =>
      have hc := hr c (by simp)
      rcases hrest with rfl | ⟨d, t, rfl, hd⟩
      · simp [wordRuns, hc]
      · obtain ⟨b', r', rest', h1, h2, h3, h4, h5⟩ := first_run w (d :: t) (by simp)
        have : b' ≠ b := by
          cases r' with
          | nil => exact absurd rfl h2
          | cons e r' =>
            simp only [List.cons_append, List.cons.injEq] at h1
            rw [← h3 e (by simp), ← h1.1]; exact hd
        simp only [List.cons_append, List.nil_append]
        rw [wordRuns, h5]
        simp only [hc, this, if_false]
    | cons e r =>
      have := ih (by simp) (fun x hx => hr x (by simp [hx]))
      rw [List.cons_append, wordRuns, this]
      simp [hr c (by simp)]

theorem mapWords_run (w : Char → Bool) (f : Str → Str) (b : Bool) (r rest : Str) (hne : r ≠ []) (hr : ∀ c ∈ r, w c = b)
    (hrest : rest = [] ∨ ∃ d t, rest = d :: t ∧ w d ≠ b) :
    mapWords w f (r ++ rest) = (if b then f r else r) ++ mapWords w f rest := by
  unfold mapWords
  rw [wordRuns_run w b r rest hne hr hrest]
  rfl

theorem subWord_true (w : Char → Bool) (search rep : Str) (r rest : Str) (hr : ∀ c ∈ r, w c = true) :
    subWord w search rep true 0 (r ++ rest) = r ++ subWord w search rep true 0 rest := by
  induction r with
  | nil => rfl
  | cons c r ih =>
    rw [List.cons_append, subWord]
    simp only [Bool.not_true, Bool.false_and, Bool.false_eq_true, if_false, hr c (by simp)]
    rw [ih (fun x hx => hr x (by simp [hx]))]
    rfl

theorem subWord_other (w : Char → Bool) (search rep : Str) (hs : search ≠ []) (hw : ∀ c ∈ search, w c = true)
    (r rest : Str) (hr : ∀ c ∈ r, w c = false) (hne : r ≠ []) (prev : Bool) :
    subWord w search rep prev 0 (r ++ rest) = r ++ subWord w search rep false 0 rest := by
  induction r generalizing prev with
  | nil => exact absurd rfl hne
  | cons c r ih =>
    have hc := hr c (by simp)
    have hno : startsWith (c :: (r ++ rest)) search = false := by
      cases hst : startsWith (c :: (r ++ rest)) search with
      | false => rfl
      | true =>
        obtain ⟨t, ht⟩ := startsWith_split hst
        cases search with
        | nil => exact absurd rfl hs
        | cons d search =>
          simp only [List.cons_append, List.cons.injEq] at ht
          rw [ht.1, hw d (by simp)] at hc
          cases hc
    rw [List.cons_append, subWord, hno]
    simp only [Bool.and_false, Bool.false_and, Bool.false_eq_true, if_false, hc]
    cases r with
    | nil => rfl
    | cons d r => rw [ih (fun x hx => hr x (by simp [hx])) (by simp)]; rfl

theorem subWord_eq (w : Char → Bool) (search rep : Str) (hs : search ≠ []) (hw : ∀ c ∈ search, w c = true) (n : Nat) :
    ∀ s prev, s.length ≤ n → (prev = true → wordAt w s = false) →
      subWord w search rep prev 0 s = mapWords w (fun r => if r = search then rep else r) s := by
  induction n with
  | zero =>
    intro s prev hl _
    cases s with
    | nil => rfl
    | cons => simp at hl
  | succ n ih =>
    intro s prev hl hp
    cases s with
    | nil => rfl
    | cons c0 s0 =>
      obtain ⟨b, r, rest, h1, h2, h3, h4, _⟩ := first_run w (c0 :: s0) (by simp)
      rw [h1] at hl hp ⊢
      have hlen : rest.length ≤ n := by
        have : 0 < r.length := List.length_pos_iff.2 h2
        simp only [List.length_append] at hl; omega
      rw [mapWords_run w _ b r rest h2 h3 h4]
      cases b with
      | false =>
        rw [subWord_other w search rep hs hw r rest h3 h2, ih rest false hlen (by simp)]
        rfl
      | true =>
        have hprev : prev = false := by
          cases prev with
          | false => rfl
          | true =>
            have := hp rfl
            cases r with
            | nil => exact absurd rfl h2
            | cons d r => simp only [List.cons_append, wordAt, h3 d (by simp)] at this; cases this
        have hrest : wordAt w rest = false := by
          rcases h4 with rfl | ⟨d, t, rfl, hd⟩
          · rfl
          · simpa [wordAt] using hd
        have hR := ih rest true hlen (fun _ => hrest)
        rw [← hR]
        subst hprev
        simp only [if_true]
        by_cases he : r = search
        · rw [if_pos he]
          subst he
          cases r with
          | nil => exact absurd rfl hs
          | cons d r =>
            rw [List.cons_append, subWord]
            have e1 : startsWith (d :: (r ++ rest)) (d :: r) = true := startsWith_append (d :: r) rest
            have e2 : (d :: (r ++ rest)).drop (d :: r).length = rest := by
              rw [← List.cons_append]; exact List.drop_left
            rw [e1, e2, hrest]
            simp only [Bool.not_false, Bool.and_self, if_true, List.length_cons, Nat.add_sub_cancel]
            rw [subWord_skip w _ _ r rest _ (fun x hx => hw x (by simp [hx])) (hw d (by simp))]
        · rw [if_neg he]
          cases r with
          | nil => exact absurd rfl h2
          | cons d r =>
            rw [List.cons_append, subWord]
            have hno : (startsWith (d :: (r ++ rest)) search && !wordAt w ((d :: (r ++ rest)).drop search.length)) = false := by
              cases hst : startsWith (d :: (r ++ rest)) search with
              | false => rfl
              | true =>
                obtain ⟨t, ht⟩ := startsWith_split hst
                have hdrop : (d :: (r ++ rest)).drop search.length = t := by rw [ht]; exact List.drop_left
                rw [hdrop]
                cases hwt : wordAt w t with
                | true => rfl
                | false =>
                  exfalso
                  apply he
                  have ht' : (d :: r) ++ rest = search ++ t := ht
                  have hstop : ∀ (x y a b : Str), (∀ c ∈ x, w c = true) → (∀ c ∈ y, w c = true) → wordAt w a = false →
                      wordAt w b = false → x ++ a = y ++ b → x = y := by
                    intro x
                    induction x with
                    | nil =>
                      intro y a b _ hy ha _ hh
                      cases y with
                      | nil => rfl
                      | cons e y =>
                        simp only [List.nil_append, List.cons_append] at hh
                        rw [hh] at ha
                        simp only [wordAt, hy e (by simp)] at ha
                        cases ha
                    | cons e x ihx =>
                      intro y a b hx hy ha hb hh
                      cases y with
                      | nil =>
                        simp only [List.nil_append, List.cons_append] at hh
                        rw [← hh] at hb
                        simp only [wordAt, hx e (by simp)] at hb
                        cases hb
                      | cons e' y =>
                        simp only [List.cons_append, List.cons.injEq] at hh
                        rw [hh.1, ihx y a b (fun c hc => hx c (by simp [hc])) (fun c hc => hy c (by simp [hc])) ha hb hh.2]
                  exact hstop _ _ _ _ h3 hw hrest hwt ht'
            rw [Bool.not_false, Bool.true_and, hno]
            simp only [Bool.false_eq_true, if_false, h3 d (by simp)]
            rw [subWord_true w _ _ r rest (fun x hx => h3 x (by simp [hx]))]
            rfl

theorem mapWords_comp (w : Char → Bool) (f g : Str → Str)
    (hf : ∀ r, r ≠ [] → (∀ c ∈ r, w c = true) → f r ≠ [] ∧ ∀ c ∈ f r, w c = true) (n : Nat) :
    ∀ s, s.length ≤ n → mapWords w g (mapWords w f s) = mapWords w (fun r => g (f r)) s ∧
      wordAt w (mapWords w f s) = wordAt w s ∧ (mapWords w f s = [] ↔ s = []) := by
  induction n with
  | zero =>
    intro s hl
    cases s with
    | nil => exact ⟨rfl, rfl, Iff.rfl⟩
    | cons => simp at hl
  | succ n ih =>
    intro s hl
    cases s with
    | nil => exact ⟨rfl, rfl, Iff.rfl⟩
    | cons c0 s0 =>
      obtain ⟨b, r, rest, h1, h2, h3, h4, _⟩ := first_run w (c0 :: s0) (by simp)
      rw [h1] at hl ⊢
      have hlen : rest.length ≤ n := by
        have : 0 < r.length := List.length_pos_iff.2 h2
        simp only [List.length_append] at hl; omega
      obtain ⟨i1, i2, i3⟩ := ih rest hlen
      rw [mapWords_run w _ b r rest h2 h3 h4, mapWords_run w _ b r rest h2 h3 h4]
      have hr' : (if b then f r else r) ≠ [] ∧ ∀ c ∈ (if b then f r else r), w c = b := by
        cases b with
        | false => exact ⟨h2, h3⟩
        | true => exact hf r h2 h3
      have hrest' : mapWords w f rest = [] ∨ ∃ d t, mapWords w f rest = d :: t ∧ w d ≠ b := by
        rcases h4 with rfl | ⟨d, t, rfl, hd⟩
        · exact Or.inl rfl
        · right
          cases hm : mapWords w f (d :: t) with
          | nil => exact absurd (i3.1 hm) (by simp)
          | cons e u =>
            rw [hm] at i2
            simp only [wordAt] at i2
            exact ⟨e, u, rfl, by rw [i2]; exact hd⟩
      refine ⟨?_, ?_, ?_⟩
      · rw [mapWords_run w _ b _ _ hr'.1 hr'.2 hrest', i1]
        cases b <;> rfl
      · obtain ⟨e, u, hu⟩ := List.exists_cons_of_ne_nil hr'.1
        obtain ⟨e', u', hu'⟩ := List.exists_cons_of_ne_nil h2
        have w1 := hr'.2 e (by rw [hu]; simp)
        have w2 := h3 e' (by rw [hu']; simp)
        rw [hu, hu']
        simp only [List.cons_append, wordAt, w1, w2]
      · simp [hr'.1, h2]

theorem mapWords_congr (w : Char → Bool) (f g : Str → Str) (h : ∀ r, r ≠ [] → f r = g r) (s : Str) :
    mapWords w f s = mapWords w g s := by
  induction hn : s.length using Nat.strongRecOn generalizing s with
  | ind n ih =>
    cases s with
    | nil => rfl
    | cons c0 s0 =>
      obtain ⟨b, r, rest, h1, h2, h3, h4, _⟩ := first_run w (c0 :: s0) (by simp)
      rw [h1, mapWords_run w _ b r rest h2 h3 h4, mapWords_run w _ b r rest h2 h3 h4, h r h2,
        ih rest.length (by
          have : 0 < r.length := List.length_pos_iff.2 h2
          rw [h1, List.length_append] at hn; omega) rest rfl]

theorem mapWords_id (w : Char → Bool) (s : Str) : mapWords w (fun r => r) s = s := by
  induction hn : s.length using Nat.strongRecOn generalizing s with
  | ind n ih =>
    cases s with
    | nil => rfl
    | cons c0 s0 =>
      obtain ⟨b, r, rest, h1, h2, h3, h4, _⟩ := first_run w (c0 :: s0) (by simp)
      rw [h1, mapWords_run w _ b r rest h2 h3 h4,
        ih rest.length (by
          have : 0 < r.length := List.length_pos_iff.2 h2
          rw [h1, List.length_append] at hn; omega) rest rfl]
      cases b <;> rfl

/-- **C56** (partial): if the prefix consists of word characters, then in the code of a helper function
every whole word that is the name of a dependency becomes the name under which that function is
emitted, and nothing else changes. What is missing: prefixes with other characters, for which it is
false (`C56_hyphen`). -/
theorem C56_dependencies_renamed_partial (w : Char → Bool) (pre : Str) (deps : List Str) (code : Str)
    (hu : w '_' = true) (hpre : ∀ c ∈ pre, w c = true) (hd : ∀ d ∈ deps, d ≠ [] ∧ ∀ c ∈ d, w c = true)
    (hr : ∀ d ∈ deps, realName pre d ∉ deps) :
    replaceDeps w pre deps code = mapWords w (fun r => if r ∈ deps then realName pre r else r) code := by
  have hreal : ∀ d ∈ deps, realName pre d ≠ [] ∧ ∀ c ∈ realName pre d, w c = true := by
    intro d hdm
    constructor
    · simp [realName, S]
    · intro c hc
      simp only [realName, S, String.reduceToList, List.mem_append, List.mem_cons, List.not_mem_nil, or_false, or_self] at hc
      rcases hc with (hc | rfl) | hc
      · exact hpre c hc
      · exact hu
      · exact (hd d hdm).2 c hc
  have key : ∀ (done todo : List Str), (∀ d ∈ done ++ todo, d ∈ deps) →
      replaceDeps w pre todo (mapWords w (fun r => if r ∈ done then realName pre r else r) code) =
        mapWords w (fun r => if r ∈ done ++ todo then realName pre r else r) code := by
    intro done todo
    induction todo generalizing done with
    | nil => intro _; simp [replaceDeps]
    | cons d todo ih =>
      intro hall
      have hdm : d ∈ deps := hall d (by simp)
      unfold replaceDeps
      rw [List.foldl_cons, subWord_eq w d _ (hd d hdm).1 (hd d hdm).2 _ _ false (Nat.le_refl _) (by simp),
        (mapWords_comp w _ _ (by
          intro r h1 h2
          by_cases hmem : r ∈ done
          · simp only [hmem, if_true]; exact hreal r (hall r (by simp [hmem]))
          · simp only [hmem, if_false]; exact ⟨h1, h2⟩) _ code (Nat.le_refl _)).1]
      have := ih (done ++ [d]) (by simpa using hall)
      unfold replaceDeps at this
      simp only [List.append_assoc, List.cons_append, List.nil_append] at this
      rw [← this]
      congr 1
      apply mapWords_congr
      intro r _
      by_cases h1 : r ∈ done
      · have hne : realName pre r ≠ d := by
          intro he
          exact hr r (hall r (by simp [h1])) (he ▸ hdm)
        simp [h1, hne]
      · by_cases h2 : r = d
        · subst h2; simp [h1]
        · simp [h1, h2]
  have := key [] deps (by simp)
  simp only [List.not_mem_nil, if_false, mapWords_id, List.nil_append] at this
  exact this

/-- Two dependencies and code that mentions them. -/
theorem C56_example : replaceDeps (fun c => c.isAlphanum || c == '_') (S "_prog") [S "dequote", S "exec"]
    (S "_prog__kv_exec() { exec dequote exec_fast; }") =
    S "_prog__kv_exec() { _prog__exec _prog__dequote exec_fast; }" := by
  decide +kernel

/-- **C56 is false for prefixes with hyphens**: for the program `a-exec-b` the helper
`key_value_pair_exec` is emitted under a name that nobody calls. -/
theorem C56_hyphen : assocGet bashRepo (S "key_value_pair_exec") = some [S "dequote", S "exec"] ∧
    replaceDeps (fun c => c.isAlphanum || c == '_') (S "_a-exec-b") [S "dequote", S "exec"]
      (realName (S "_a-exec-b") (S "key_value_pair_exec") ++ S "() {") =
      S "_a-_a-exec-b__exec-b__key_value_pair_exec() {" := by
  constructor <;> decide +kernel

end CC
