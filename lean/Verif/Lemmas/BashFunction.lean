import Verif.Model.BashFunction
import Verif.Props.Algo
/-!
# Lemmas about `__complete_option`
-/

namespace CC

/-- A string belongs to one option at most. -/
def SingleStrings (os : List ArgOpt) : Prop :=
  ∀ a ∈ os, ∀ b ∈ os, ∀ s, s ∈ a.strings → s ∈ b.strings → a = b

theorem SingleStrings.sub {os os' : List ArgOpt} (h : SingleStrings os) (hs : ∀ a ∈ os', a ∈ os) : SingleStrings os' :=
  fun a ha b hb => h a (hs a ha) b (hs b hb)

theorem partitionBy_eq {α} (p : α → Bool) (l : List α) : partitionBy p l = (l.filter p, l.filter (fun x => !p x)) := by
  induction l with
  | nil => rfl
  | cons x xs ih => by_cases h : p x = true <;> simp [partitionBy, ih, h]

/-- The groups are made of the elements. -/
theorem groupBy_mem {α κ : Type} [DecidableEq κ] (f : α → κ) (l : List α) {k : κ} {xs : List α} (h : (k, xs) ∈ groupBy f l) (x : α) :
    x ∈ xs ↔ x ∈ l ∧ f x = k := by
  rw [show xs = l.filter (fun x => f x = k) by rw [← groupBy_get, groupGet_of_mem (groupBy_keys f l).1 h]]
  simp

theorem groupBy_has {α κ : Type} [DecidableEq κ] (f : α → κ) (l : List α) {x : α} (h : x ∈ l) : ∃ xs, (f x, xs) ∈ groupBy f l := by
  have := (groupBy_keys f l).2.1 (f x)
  have := this.mpr (List.mem_map.mpr ⟨x, h, rfl⟩)
  obtain ⟨g, hg, e⟩ := List.mem_map.mp this
  exact ⟨g.2, by rw [← e]; exact hg⟩

theorem clauseOf_found {os : List ArgOpt} (hs : SingleStrings os) {a : ArgOpt} (ha : a ∈ os) {opt : Str} (h : opt ∈ a.strings) :
    clauseOf opt (groupedClauses os) = some a.code := by
  unfold clauseOf
  cases hf : (groupedClauses os).find? (fun cl => cl.1.contains opt) with
  | none =>
    exfalso
    obtain ⟨xs, hx⟩ := groupBy_has ArgOpt.code os ha
    have := List.find?_eq_none.mp hf (xs.flatMap ArgOpt.strings, a.code) (List.mem_map.mpr ⟨_, hx, rfl⟩)
    apply this
    simp only [List.contains_iff_mem, List.mem_flatMap]
    exact ⟨a, (groupBy_mem _ _ hx a).mpr ⟨ha, rfl⟩, h⟩
  | some cl =>
    have h1 := List.mem_of_find?_eq_some hf
    have h2 := List.find?_some hf
    obtain ⟨g, hg, rfl⟩ := List.mem_map.mp h1
    simp only [List.contains_iff_mem, List.mem_flatMap] at h2
    obtain ⟨b, hb, h2⟩ := h2
    obtain ⟨hb, e⟩ := (groupBy_mem _ _ hg b).mp hb
    have := hs a ha b hb opt h h2
    subst this
    simp [e]

theorem clauseOf_none {os : List ArgOpt} {opt : Str} (h : ∀ a ∈ os, opt ∉ a.strings) :
    clauseOf opt (groupedClauses os) = none := by
  unfold clauseOf
  rw [Option.map_eq_none_iff, List.find?_eq_none]
  intro cl hcl
  obtain ⟨g, hg, rfl⟩ := List.mem_map.mp hcl
  simp only [List.contains_iff_mem, List.mem_flatMap, not_exists, not_and]
  intro b hb
  exact h b ((groupBy_mem _ _ hg b).mp hb).1

/-- The option may be used: its condition holds. -/
def ArgOpt.met (holds : Str → Bool) (a : ArgOpt) : Prop := ∀ w, a.cond = some w → holds w = true

theorem runMaster_whens {holds : Str → Bool} {opt : Str} {m : Bool} (os : List ArgOpt) (hw : ∀ a ∈ os, a.cond.isSome = true)
    (r : List MStmt) (ret : Bool) (hs : SingleStrings os) :
    (∀ a ∈ os, opt ∈ a.strings → a.met holds → runMaster holds opt m true (os.map whenStmt ++ r) ret = ([a.code], true)) ∧
    ((∀ a ∈ os, opt ∈ a.strings → ¬ a.met holds) →
      runMaster holds opt m true (os.map whenStmt ++ r) ret = runMaster holds opt m true r ret) := by
  induction os with
  | nil => exact ⟨by simp, by simp⟩
  | cons b os ih =>
    have ih := ih (fun a ha => hw a (List.mem_cons_of_mem _ ha)) (hs.sub (fun a ha => List.mem_cons_of_mem _ ha))
    have hb := hw b (List.mem_cons_self ..)
    obtain ⟨w, hw'⟩ := Option.isSome_iff_exists.mp hb
    have hm : b.met holds ↔ holds w = true := by
      unfold ArgOpt.met; rw [hw']; simp
    constructor
    · intro a ha h1 h2
      simp only [List.map_cons, List.cons_append, whenStmt, runMaster]
      by_cases hc : opt ∈ b.strings
      · have : a = b := hs a ha b (List.mem_cons_self ..) opt h1 hc
        subst this
        rw [if_pos (by simp [hc, hw', hm.mp h2])]
      · rw [if_neg (by simp [hc])]
        refine ih.1 a ?_ h1 h2
        rcases List.mem_cons.mp ha with rfl | ha
        · exact absurd h1 hc
        · exact ha
    · intro H
      simp only [List.map_cons, List.cons_append, whenStmt, runMaster]
      have := H b (List.mem_cons_self ..)
      rw [if_neg (by
        simp only [Bool.and_eq_true, List.contains_iff_mem, hw', Option.getD_some]
        rintro ⟨h1, h2⟩; exact this h1 (hm.mpr h2))]
      exact ih.2 (fun a ha => H a (List.mem_cons_of_mem _ ha))

theorem runMaster_addWhen {holds : Str → Bool} {opt : Str} {m : Bool} (os : List ArgOpt) (hs : SingleStrings os)
    (r : List MStmt) (ret : Bool) :
    (∀ a ∈ os, opt ∈ a.strings → a.met holds → runMaster holds opt m true (addOptionsWhen os ++ r) ret = ([a.code], true)) ∧
    ((∀ a ∈ os, opt ∈ a.strings → ¬ a.met holds) →
      runMaster holds opt m true (addOptionsWhen os ++ r) ret = runMaster holds opt m true r ret) := by
  unfold addOptionsWhen
  rw [partitionBy_eq]
  simp only [List.append_assoc]
  have hw := runMaster_whens (holds := holds) (opt := opt) (m := m) (os.filter (fun o => o.cond.isSome)) (fun a ha => (List.mem_filter.mp ha).2)
    ((if (os.filter (fun o => !o.cond.isSome)).isEmpty then [] else [.cases (groupedClauses (os.filter (fun o => !o.cond.isSome)))]) ++ r) ret
    (hs.sub (fun a ha => (List.mem_filter.mp ha).1))
  have hs2 : SingleStrings (os.filter (fun o => !o.cond.isSome)) := hs.sub (fun a ha => (List.mem_filter.mp ha).1)
  have hnil : ∀ a : ArgOpt, a.cond.isSome = false → a.met holds := by
    intro a h w e; rw [e] at h; cases h
  constructor
  · intro a ha h1 h2
    by_cases hc : a.cond.isSome = true
    · exact hw.1 a (List.mem_filter.mpr ⟨ha, hc⟩) h1 h2
    · rw [hw.2]
      · have ha' : a ∈ os.filter (fun o => !o.cond.isSome) := List.mem_filter.mpr ⟨ha, by simpa using hc⟩
        rw [if_neg (by intro e; rw [List.isEmpty_iff] at e; rw [e] at ha'; cases ha')]
        simp only [List.cons_append, runMaster, clauseOf_found hs2 ha' h1]
      · intro b hb h3 h4
        have := hs a ha b (List.mem_filter.mp hb).1 opt h1 h3
        subst this
        exact hc (List.mem_filter.mp hb).2
  · intro H
    rw [hw.2 (fun a ha => H a (List.mem_filter.mp ha).1)]
    split
    · rfl
    · simp only [List.cons_append, List.nil_append, runMaster]
      rw [clauseOf_none]
      intro a ha h
      have := List.mem_filter.mp ha
      exact H a this.1 h (hnil a (by simpa using this.2))

/-- The option may be used where an argument of that kind can be. -/
def ArgOpt.usable (holds : Str → Bool) (m : Bool) (a : ArgOpt) : Prop := a.met holds ∧ (a.optional = true → m = true)

/-- Some option must have its argument, or some option has a condition. -/
def NotOnlyOptional (os : List ArgOpt) : Prop := (∃ a ∈ os, a.optional = false) ∨ ∃ a ∈ os, a.cond.isSome = true

theorem masterWhen_run {holds : Str → Bool} {opt : Str} {m : Bool} {os : List ArgOpt} (hs : SingleStrings os) (ret : Bool) :
    (∀ a ∈ os, opt ∈ a.strings → a.usable holds m → runMaster holds opt m true (masterWhen os) ret = ([a.code], true)) ∧
    ((∀ a ∈ os, opt ∈ a.strings → ¬ a.usable holds m) → runMaster holds opt m true (masterWhen os) ret = ([], false)) := by
  unfold masterWhen
  have h1 := runMaster_addWhen (holds := holds) (opt := opt) (m := m) (os.filter (fun o => !o.optional)) (hs.sub (fun a ha => (List.mem_filter.mp ha).1))
    (if (os.filter (fun o => o.optional)).isEmpty then [] else .mode :: addOptionsWhen (os.filter (fun o => o.optional))) ret
  have h2 := runMaster_addWhen (holds := holds) (opt := opt) (m := m) (os.filter (fun o => o.optional)) (hs.sub (fun a ha => (List.mem_filter.mp ha).1)) [] ret
  rw [List.append_nil] at h2
  constructor
  · intro a ha hm hu
    by_cases ho : a.optional = true
    · rw [h1.2]
      · have ha' : a ∈ os.filter (fun o => o.optional) := List.mem_filter.mpr ⟨ha, ho⟩
        rw [if_neg (by intro e; rw [List.isEmpty_iff] at e; rw [e] at ha'; cases ha')]
        simp only [runMaster, hu.2 ho, if_true]
        exact (hu.2 ho) ▸ h2.1 a ha' hm hu.1
      · intro b hb h3 _
        have := hs a ha b (List.mem_filter.mp hb).1 opt hm h3
        subst this
        have := (List.mem_filter.mp hb).2
        rw [ho] at this; cases this
    · exact h1.1 a (List.mem_filter.mpr ⟨ha, by simpa using ho⟩) hm hu.1
  · intro H
    rw [h1.2]
    · split
      · rfl
      · simp only [runMaster]
        by_cases hm : m = true
        · rw [if_pos hm, h2.2]
          · rfl
          · intro a ha h3 h4
            exact H a (List.mem_filter.mp ha).1 h3 ⟨h4, fun _ => hm⟩
        · rw [if_neg hm]
    · intro a ha h3 h4
      have := List.mem_filter.mp ha
      refine H a this.1 h3 ⟨h4, fun h => ?_⟩
      simp [h] at this

theorem masterNoWhen_run {holds : Str → Bool} {opt : Str} {m : Bool} {os : List ArgOpt} (hs : SingleStrings os)
    (hr : ∃ a ∈ os, a.optional = false) :
    (∀ a ∈ os, opt ∈ a.strings → (a.optional = true → m = true) →
      runMaster holds opt m false (masterNoWhen os) true = ([a.code], true)) ∧
    ((∀ a ∈ os, opt ∈ a.strings → ¬ (a.optional = true → m = true)) →
      runMaster holds opt m false (masterNoWhen os) true = ([], false)) := by
  unfold masterNoWhen
  obtain ⟨x, hx, hxo⟩ := hr
  have hx' : x ∈ os.filter (fun o => !o.optional) := List.mem_filter.mpr ⟨hx, by simp [hxo]⟩
  have e1 : addOptionsNoWhen (os.filter (fun o => !o.optional)) = [.casesRet (groupedClauses (os.filter (fun o => !o.optional)))] := by
    unfold addOptionsNoWhen
    rw [if_neg (by intro e; rw [List.isEmpty_iff] at e; rw [e] at hx'; cases hx')]
  have s1 : SingleStrings (os.filter (fun o => !o.optional)) := hs.sub (fun a ha => (List.mem_filter.mp ha).1)
  have s2 : SingleStrings (os.filter (fun o => o.optional)) := hs.sub (fun a ha => (List.mem_filter.mp ha).1)
  simp only [e1, List.cons_append, List.nil_append]
  constructor
  · intro a ha h1 hu
    by_cases ho : a.optional = true
    · have ha' : a ∈ os.filter (fun o => o.optional) := List.mem_filter.mpr ⟨ha, ho⟩
      have hne : ¬ (os.filter (fun o => o.optional)).isEmpty = true := by
        intro e; rw [List.isEmpty_iff] at e; rw [e] at ha'; cases ha'
      rw [if_neg hne]
      simp only [runMaster]
      rw [clauseOf_none]
      · simp only [hu ho, if_true, Bool.false_eq_true, if_false, addOptionsNoWhen, hne, runMaster, clauseOf_found s2 ha' h1]
      · intro b hb h3
        have hb := List.mem_filter.mp hb
        have := hs a ha b hb.1 opt h1 h3
        subst this
        simp [ho] at hb
    · have ha' : a ∈ os.filter (fun o => !o.optional) := List.mem_filter.mpr ⟨ha, by simpa using ho⟩
      simp only [runMaster, clauseOf_found s1 ha' h1]
      split <;> simp [runMaster]
  · intro H
    simp only [runMaster]
    rw [clauseOf_none]
    · dsimp only
      split
      · simp [runMaster]
      · rename_i hne
        simp only [runMaster, Bool.false_eq_true, if_false]
        by_cases hm : m = true
        · rw [if_pos hm]
          simp only [addOptionsNoWhen]
          rw [if_neg hne]
          simp only [runMaster]
          rw [clauseOf_none]
          · rfl
          · intro a ha h3
            exact H a (List.mem_filter.mp ha).1 h3 (fun _ => hm)
        · rw [if_neg hm]
    · intro a ha h3
      have := List.mem_filter.mp ha
      refine H a this.1 h3 (fun h => ?_)
      simp [h] at this

/-- `__complete_option`: the code of the option runs, if it may be used; otherwise nothing runs. -/
theorem completeOption_run {holds : Str → Bool} {opt : Str} {m : Bool} {os : List ArgOpt} (hs : SingleStrings os)
    (hn : NotOnlyOptional os) :
    (∀ a ∈ os, opt ∈ a.strings → a.usable holds m → completeOption holds os opt m = ([a.code], true)) ∧
    ((∀ a ∈ os, opt ∈ a.strings → ¬ a.usable holds m) → completeOption holds os opt m = ([], false)) := by
  unfold completeOption masterOf
  by_cases hw : os.any (fun o => o.cond.isSome) = true
  · rw [if_pos hw]; exact masterWhen_run hs true
  · rw [if_neg hw]
    have hw' : ∀ a ∈ os, a.cond.isSome = false := by
      intro a ha
      have : ¬ ∃ x ∈ os, x.cond.isSome = true := by simpa using hw
      cases h : a.cond.isSome with
      | false => rfl
      | true => exact absurd ⟨a, ha, h⟩ this
    have hr : ∃ a ∈ os, a.optional = false := by
      rcases hn with h | ⟨a, ha, h⟩
      · exact h
      · rw [hw' a ha] at h; cases h
    have hm : ∀ a ∈ os, a.met holds := by
      intro a ha w e
      have := hw' a ha
      rw [e] at this; cases this
    have := masterNoWhen_run (holds := holds) (opt := opt) (m := m) hs hr
    refine ⟨fun a ha h hu => this.1 a ha h hu.2, fun H => this.2 (fun a ha h hu => H a ha h ⟨hm a ha, hu⟩)⟩

/-- With nothing but optional arguments and without conditions, nothing ever runs. -/
theorem completeOption_onlyOptional {holds : Str → Bool} {opt : Str} {m : Bool} {os : List ArgOpt} (hne : os ≠ [])
    (hn : ¬ NotOnlyOptional os) : completeOption holds os opt m = ([], true) := by
  have h1 : ∀ a ∈ os, a.optional = true := by
    intro a ha
    cases h : a.optional with
    | true => rfl
    | false => exact absurd (Or.inl ⟨a, ha, h⟩) hn
  have h2 : os.any (fun o => o.cond.isSome) = false := by
    rw [List.any_eq_false]
    intro a ha h
    exact hn (Or.inr ⟨a, ha, h⟩)
  have e1 : os.filter (fun o => !o.optional) = [] := by
    rw [List.filter_eq_nil_iff]; intro a ha; simp [h1 a ha]
  have e2 : os.filter (fun o => o.optional) = os := List.filter_eq_self.mpr h1
  unfold completeOption masterOf
  rw [h2]
  simp only [Bool.false_eq_true, if_false, masterNoWhen, e1, e2, addOptionsNoWhen, List.isEmpty_nil, if_true, List.nil_append]
  rw [if_neg (by simpa using hne)]
  rfl

end CC
