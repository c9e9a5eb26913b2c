import Verif.Model.Compat
/-!
# C30: backward compatible `group` keys
-/

namespace CC

/-! ## Dictionaries -/

theorem getKey_none_iff (d : List (Key × Val)) (k : Str) :
    getKey d k = none ↔ ∀ e ∈ d, e.1 ≠ .str k := by
  simp [getKey]

theorem hasKey_iff (d : List (Key × Val)) (k : Str) : hasKey d k = true ↔ getKey d k ≠ none := by
  simp only [hasKey, List.any_eq_true, decide_eq_true_eq, ne_eq, getKey_none_iff]
  constructor
  · rintro ⟨e, he, h⟩ hn; exact hn e he h
  · intro h
    refine Classical.byContradiction fun hc => h ?_
    intro e he hk; exact hc ⟨e, he, hk⟩

theorem getKey_cons (e : Key × Val) (d : List (Key × Val)) (k : Str) :
    getKey (e :: d) k = if e.1 = .str k then some e.2 else getKey d k := by
  unfold getKey
  rw [List.find?_cons]
  by_cases h : e.1 = .str k <;> simp [h]

theorem getKey_delKey_self (d : List (Key × Val)) (k : Str) : getKey (delKey d k) k = none := by
  rw [getKey_none_iff]
  intro e he
  simp [delKey] at he
  exact he.2

theorem getKey_delKey_ne (d : List (Key × Val)) (k k' : Str) (h : k' ≠ k) :
    getKey (delKey d k) k' = getKey d k' := by
  induction d with
  | nil => rfl
  | cons e d ih =>
    unfold delKey at ih ⊢
    rw [List.filter_cons]
    split
    · rw [getKey_cons, getKey_cons, ih]
    · rename_i he
      simp at he
      rw [ih, getKey_cons, if_neg]
      rw [he]; intro hh; injection hh with hh; exact h hh.symm

theorem getKey_setKey_self (d : List (Key × Val)) (k : Str) (v : Val) :
    getKey (setKey d (.str k) v) k = some v := by
  induction d with
  | nil => simp [setKey, getKey_cons]
  | cons e d ih =>
    obtain ⟨k', v'⟩ := e
    simp only [setKey]
    split
    · simp [getKey_cons]
    · rename_i h; rw [getKey_cons, if_neg h, ih]

theorem getKey_setKey_ne (d : List (Key × Val)) (k k' : Str) (v : Val) (h : k' ≠ k) :
    getKey (setKey d (.str k) v) k' = getKey d k' := by
  have hk : Key.str k ≠ .str k' := by intro hh; injection hh with hh; exact h hh.symm
  induction d with
  | nil => simp [setKey, getKey_cons, hk]
  | cons e d ih =>
    obtain ⟨k0, v0⟩ := e
    simp only [setKey]
    split
    · rename_i he
      rw [getKey_cons, getKey_cons, if_neg hk, if_neg (by rw [he]; exact hk)]
    · rw [getKey_cons, getKey_cons, ih]

/-- Setting a key to a value leaves the other entries alone. -/
theorem setKey_others (d : List (Key × Val)) (k : Key) (v : Val) :
    (setKey d k v).filter (fun e => decide (e.1 ≠ k)) = d.filter (fun e => decide (e.1 ≠ k)) := by
  induction d with
  | nil => simp [setKey]
  | cons e d ih =>
    obtain ⟨k0, v0⟩ := e
    simp only [setKey]
    split
    · rename_i h; subst h; simp [List.filter_cons]
    · rename_i h; simp only [List.filter_cons, ih]

/-! ## The property -/

/-- The value of the `groups` key that a fixed option must have. -/
def newGroups (d : List (Key × Val)) : Option Val :=
  match getKey d (S "groups"), getKey d (S "group") with
  | some gs, _ => some gs
  | none, some g => some (.list [g])
  | none, none => none

/-- **C30**: a fixed option has no `group` key; `groups` is kept if given, otherwise it is the list
of the old value; every other entry is the same, in the same order. -/
theorem C30_fix_option (d : List (Key × Val)) :
    ∃ d', fixOption (.dict d) = .dict d' ∧
      getKey d' (S "group") = none ∧
      getKey d' (S "groups") = newGroups d ∧
      d'.filter (fun e => decide (e.1 ≠ .str (S "group") ∧ e.1 ≠ .str (S "groups"))) =
        d.filter (fun e => decide (e.1 ≠ .str (S "group") ∧ e.1 ≠ .str (S "groups"))) := by
  have hne : S "group" ≠ S "groups" := by decide
  have hdel : (delKey d (S "group")).filter
      (fun e => decide (e.1 ≠ .str (S "group") ∧ e.1 ≠ .str (S "groups"))) =
      d.filter (fun e => decide (e.1 ≠ .str (S "group") ∧ e.1 ≠ .str (S "groups"))) := by
    rw [delKey, List.filter_filter]
    apply List.filter_congr
    intro e _
    rw [Bool.eq_iff_iff]; simp; intro h _; exact h
  cases hg : getKey d (S "group") with
  | none =>
    refine ⟨d, by simp only [fixOption, hg], hg, ?_, rfl⟩
    unfold newGroups
    rw [hg]
    cases getKey d (S "groups") <;> rfl
  | some g =>
    by_cases hgs : hasKey d (S "groups") = true
    · refine ⟨delKey d (S "group"), by simp only [fixOption, hg, hgs, if_true],
        getKey_delKey_self _ _, ?_, hdel⟩
      rw [getKey_delKey_ne _ _ _ (Ne.symm hne)]
      rw [hasKey_iff] at hgs
      unfold newGroups
      cases h : getKey d (S "groups") with
      | none => exact absurd h hgs
      | some v => rfl
    · refine ⟨setKey (delKey d (S "group")) (.str (S "groups")) (.list [g]),
        by simp only [fixOption, hg]; rw [if_neg hgs], ?_, ?_, ?_⟩
      · rw [getKey_setKey_ne _ _ _ _ hne]; exact getKey_delKey_self _ _
      · rw [getKey_setKey_self]
        rw [hasKey_iff] at hgs
        unfold newGroups
        have : getKey d (S "groups") = none := Classical.byContradiction hgs
        rw [this, hg]
      · rw [← hdel]
        have e := setKey_others (delKey d (S "group")) (.str (S "groups")) (.list [g])
        have split2 : ∀ l : List (Key × Val), l.filter
            (fun e => decide (e.1 ≠ .str (S "group") ∧ e.1 ≠ .str (S "groups"))) =
            (l.filter (fun e => decide (e.1 ≠ .str (S "groups")))).filter
              (fun e => decide (e.1 ≠ .str (S "group"))) := by
          intro l
          rw [List.filter_filter]
          apply List.filter_congr
          intro e _
          rw [Bool.eq_iff_iff]; simp
        rw [split2, e, ← split2]

/-- **C30**: what is not a dictionary is left alone. -/
theorem C30_non_dict (v : Val) (h : ∀ d, v ≠ .dict d) : fixOption v = v ∧ fixCommandline v = v := by
  cases v <;> first | exact ⟨rfl, rfl⟩ | exact absurd rfl (h _)

/-- **C30**: in a command only the list under `options` changes, element by element. -/
theorem C30_fix_commandline (d : List (Key × Val)) :
    ∃ d', fixCommandline (.dict d) = .dict d' ∧
      (∀ os, getKey d (S "options") = some (.list os) →
        getKey d' (S "options") = some (.list (os.map fixOption))) ∧
      ((∀ os, getKey d (S "options") ≠ some (.list os)) → d' = d) ∧
      d'.filter (fun e => decide (e.1 ≠ .str (S "options"))) =
        d.filter (fun e => decide (e.1 ≠ .str (S "options"))) := by
  by_cases h : ∃ os, getKey d (S "options") = some (.list os)
  · obtain ⟨os, ho⟩ := h
    refine ⟨setKey d (.str (S "options")) (.list (os.map fixOption)),
      by simp only [fixCommandline, ho], ?_, ?_, setKey_others _ _ _⟩
    · intro os' h'
      rw [ho] at h'; cases h'
      exact getKey_setKey_self _ _ _
    · intro h'; exact absurd ho (h' os)
  · have hn : fixCommandline (.dict d) = .dict d := by
      simp only [fixCommandline]
      split
      · rename_i os ho; exact absurd ⟨os, ho⟩ h
      · rfl
    exact ⟨d, hn, fun os ho => absurd ⟨os, ho⟩ h, fun _ => rfl, rfl⟩

/-- **C30**: lists of commands are fixed element by element, anything else is left alone. -/
theorem C30_fix_commandlines (v : Val) :
    (∀ l, v = .list l → fixCommandlines v = .list (l.map fixCommandline)) ∧
    ((∀ l, v ≠ .list l) → fixCommandlines v = v) := by
  constructor
  · rintro l rfl; rfl
  · intro h; cases v <;> first | rfl | exact absurd rfl (h _)

theorem fixOption_idem (v : Val) : fixOption (fixOption v) = fixOption v := by
  by_cases h : ∃ d, v = .dict d
  · obtain ⟨d, rfl⟩ := h
    obtain ⟨d', h1, h2, _⟩ := C30_fix_option d
    rw [h1]
    simp only [fixOption, h2]
  · have := (C30_non_dict v (fun d hd => h ⟨d, hd⟩)).1
    rw [this, this]

theorem setKey_same (d : List (Key × Val)) (k : Str) (v : Val) :
    setKey (setKey d (.str k) v) (.str k) v = setKey d (.str k) v := by
  induction d with
  | nil => simp [setKey]
  | cons e d ih =>
    obtain ⟨k0, v0⟩ := e
    simp only [setKey]
    split
    · simp [setKey]
    · rename_i h; simp only [setKey, if_neg h, ih]

/-- **C30**: fixing twice is the same as fixing once. -/
theorem C30_idempotent (v : Val) :
    fixCommandlines (fixCommandlines v) = fixCommandlines v ∧
    fixCommandline (fixCommandline v) = fixCommandline v := by
  have hc : ∀ v, fixCommandline (fixCommandline v) = fixCommandline v := by
    intro v
    by_cases h : ∃ d, v = .dict d
    · obtain ⟨d, rfl⟩ := h
      by_cases h : ∃ os, getKey d (S "options") = some (.list os)
      · obtain ⟨os, ho⟩ := h
        have e1 : fixCommandline (.dict d) =
            .dict (setKey d (.str (S "options")) (.list (os.map fixOption))) := by
          simp only [fixCommandline, ho]
        rw [e1]
        simp only [fixCommandline, getKey_setKey_self]
        have : (os.map fixOption).map fixOption = os.map fixOption := by
          rw [List.map_map]
          apply List.map_congr_left
          intro a _; exact fixOption_idem a
        rw [this, setKey_same]
      · have hn : fixCommandline (.dict d) = .dict d := by
          simp only [fixCommandline]
          split
          · rename_i os ho; exact absurd ⟨os, ho⟩ h
          · rfl
        rw [hn, hn]
    · have := (C30_non_dict v (fun d hd => h ⟨d, hd⟩)).2
      rw [this, this]
  refine ⟨?_, hc v⟩
  by_cases h : ∃ l, v = .list l
  · obtain ⟨l, rfl⟩ := h
    simp only [fixCommandlines, List.map_map]
    congr 1
    apply List.map_congr_left
    intro a _; exact hc a
  · have := (C30_fix_commandlines v).2 (fun l hl => h ⟨l, hl⟩)
    rw [this, this]

example : fixCommandlines (.list [.dict [(.str (S "options"),
      .list [.dict [(.str (S "group"), .str (S "g")), (.str (S "help"), .none)]])]]) =
    .list [.dict [(.str (S "options"),
      .list [.dict [(.str (S "help"), .none), (.str (S "groups"), .list [.str (S "g")])]])]] := rfl

end CC
