import Verif.Props.FishLists
import Verif.Props.StrUtils
import Verif.Spec.FishKeyValues
/-!
# C91: keys with values in Fish
-/

namespace CC
open ItemList

theorem args_find {keys : List KeyDef} (k : Str) :
    (keys.map KeyDef.args).find? (fun e => e.key = k) = (keys.find? (fun e => e.name = k)).map KeyDef.args := by
  rw [List.find?_map]
  rfl

theorem find_name {keys : List KeyDef} (hk : (keys.map (·.name)).Nodup) {k : KeyDef} (h : k ∈ keys) :
    keys.find? (fun e => e.name = k.name) = some k := by
  induction keys with
  | nil => simp at h
  | cons x xs ih =>
    simp only [List.map_cons, List.nodup_cons] at hk
    rcases List.mem_cons.mp h with rfl | h
    · simp
    · have : x.name ≠ k.name := by
        intro e
        exact hk.1 (e ▸ List.mem_map.mpr ⟨k, h, rfl⟩)
      rw [List.find?_cons_of_neg (by simpa using this)]
      exact ih hk.2 h

theorem find_some_name {keys : List KeyDef} {n : Str} {k : KeyDef} (h : keys.find? (fun e => e.name = n) = some k) :
    k ∈ keys ∧ k.name = n := ⟨List.mem_of_find?_eq_some h, by simpa using List.find?_some h⟩

theorem index_iff {keys : List KeyDef} (hk : (keys.map (·.name)).Nodup) (n : Str) (i : Nat) (k : KeyDef)
    (hi : keys[i]? = some k) : keyIndex (keys.map KeyDef.args) n = some i ↔ k.name = n := by
  unfold keyIndex
  rw [List.findIdx?_map]
  have hf : ((fun e : FishKey => decide (e.key = n)) ∘ KeyDef.args) = (fun e : KeyDef => decide (e.name = n)) := rfl
  rw [hf]
  clear hf
  induction keys generalizing i with
  | nil => simp at hi
  | cons x xs ih =>
    simp only [List.map_cons, List.nodup_cons] at hk
    rw [List.findIdx?_cons]
    cases i with
    | zero =>
      simp only [List.getElem?_cons_zero, Option.some.injEq] at hi
      subst hi
      by_cases h : x.name = n
      · simp [h]
      · simp [h]
    | succ i =>
      simp only [List.getElem?_cons_succ] at hi
      have hm : k ∈ xs := List.mem_of_getElem? hi
      by_cases h : x.name = n
      · simp only [h, decide_true, if_true, Option.some.injEq]
        constructor
        · intro e; omega
        · intro e
          exact absurd (List.mem_map.mpr ⟨k, hm, e.trans h.symm⟩) hk.1
      · simp only [h, decide_false, Bool.false_eq_true, if_false, Option.map_eq_some_iff, Nat.add_right_cancel_iff]
        have h3 := ih hk.2 i hi
        constructor
        · rintro ⟨j, hj, rfl⟩; exact h3.mp hj
        · intro hj; exact ⟨i, h3.mpr hj, rfl⟩

theorem excludes_split (k : KeyDef) (h : ∀ e ∈ k.excludes, ' ' ∉ e) (n : Str) (hn : n ≠ []) :
    n ∈ splitOn ' ' k.args.excludes ↔ n ∈ k.excludes := by
  by_cases he : k.excludes = []
  · simp [KeyDef.args, he, joinWith, splitOn, hn]
  · simp only [KeyDef.args]
    rw [splitOn_join ' ' _ he h]

theorem keyOf_beforeFirst (sep : Char) (p : Str) : keyOf sep p = beforeFirst sep p := by
  unfold keyOf beforeFirst
  induction p with
  | nil => rfl
  | cons c cs ih =>
    rw [items]
    by_cases h : c = sep
    · simp [h]
    · obtain ⟨i, r, hi⟩ := items_cases sep cs
      rw [hi] at ih
      simp only [List.headD_cons] at ih
      rw [if_neg h, hi, List.takeWhile_cons]
      simp [h, ← ih]

/-- The keys that remain are those that no pair of the text excludes. -/
theorem remaining_iff {keys : List KeyDef} (hk : KeysOk keys) (sep1 sep2 : Char) (w : Str) (e : FishKey) :
    e ∈ fishRemaining (keys.map KeyDef.args) sep1 sep2 w ↔ ∃ k ∈ keys, e = k.args ∧
      ¬ ∃ pair ∈ items sep1 w, ∃ k' ∈ keys, k'.name = keyOf sep2 pair ∧ k.name ∈ k'.excludes := by
  have key : ∀ i k, keys[i]? = some k → (i ∈ (splitOn sep1 w).flatMap (pairRemoves (keys.map KeyDef.args) sep2) ↔
      ∃ pair ∈ items sep1 w, ∃ k' ∈ keys, k'.name = keyOf sep2 pair ∧ k.name ∈ k'.excludes) := by
    intro i k hi
    have hkm : k ∈ keys := List.mem_of_getElem? hi
    rw [List.mem_flatMap, splitOn_items]
    constructor
    · rintro ⟨pair, hp, hm⟩
      unfold pairRemoves at hm
      rw [args_find] at hm
      cases hf : keys.find? (fun e => e.name = beforeFirst sep2 pair) with
      | none => rw [hf] at hm; simp at hm
      | some k' =>
        obtain ⟨hk1, hk2⟩ := find_some_name hf
        rw [hf] at hm
        simp only [Option.map_some] at hm
        obtain ⟨n, hn, hni⟩ := List.mem_filterMap.mp hm
        have : k.name = n := (index_iff hk.1 n i k hi).mp hni
        subst this
        exact ⟨pair, hp, k', hk1, by rw [keyOf_beforeFirst]; exact hk2,
          (excludes_split k' (hk.2.1 k' hk1).2 _ (hk.2.1 k hkm).1).mp hn⟩
    · rintro ⟨pair, hp, k', hk1, hk2, hk3⟩
      refine ⟨pair, hp, ?_⟩
      unfold pairRemoves
      rw [keyOf_beforeFirst] at hk2
      rw [args_find, ← hk2, find_name hk.1 hk1]
      simp only [Option.map_some]
      exact List.mem_filterMap.mpr ⟨k.name, (excludes_split k' (hk.2.1 k' hk1).2 _ (hk.2.1 k hkm).1).mpr hk3,
        (index_iff hk.1 _ i k hi).mpr rfl⟩
  unfold fishRemaining
  rw [List.mem_map]
  constructor
  · rintro ⟨⟨e', i⟩, hm, rfl⟩
    rw [List.mem_filter] at hm
    have hi := List.mem_zipIdx_iff_getElem?.mp hm.1
    rw [List.getElem?_map, Option.map_eq_some_iff] at hi
    obtain ⟨k, hi, rfl⟩ := hi
    refine ⟨k, List.mem_of_getElem? hi, rfl, ?_⟩
    rw [← key i k hi]
    simpa using hm.2
  · rintro ⟨k, hkm, rfl, hne⟩
    obtain ⟨i, hi⟩ := List.mem_iff_getElem?.mp hkm
    refine ⟨(k.args, i), ?_, rfl⟩
    rw [List.mem_filter]
    refine ⟨List.mem_zipIdx_iff_getElem?.mpr (by simp [List.getElem?_map, hi]), ?_⟩
    rw [← key i k hi] at hne
    simpa using hne

theorem keyCandidate_text (k : KeyDef) (head : Str) (sep : Char) :
    keyCandidate head sep k.args = (head ++ k.text sep, k.desc) := by
  unfold keyCandidate KeyDef.text KeyDef.args
  cases k.values <;> simp

theorem split_pair {sep : Char} {p : Str} (h : sep ∈ p) :
    p = beforeFirst sep p ++ sep :: behindFirst sep p ∧ sep ∉ beforeFirst sep p := by
  constructor
  · unfold beforeFirst behindFirst
    induction p with
    | nil => simp at h
    | cons c cs ih =>
      by_cases hc : c = sep
      · simp [hc]
      · have := ih (by rcases List.mem_cons.mp h with e | e; exact absurd e.symm hc; exact e)
        simp [hc]
        simpa using this
  · intro hm
    have := List.all_takeWhile (p := (· != sep)) (l := p)
    rw [List.all_eq_true] at this
    have := this sep hm
    simp at this

theorem pair_unique {sep : Char} {a b v u : Str} (h : a ++ sep :: v = b ++ sep :: u) (ha : sep ∉ a) (hb : sep ∉ b) :
    a = b ∧ v = u := by
  induction a generalizing b with
  | nil =>
    cases b with
    | nil => simp at h; exact ⟨rfl, h⟩
    | cons x b =>
      simp at h
      exact absurd h.1 (by intro e; exact hb (by simp [e]))
  | cons y a ih =>
    cases b with
    | nil =>
      simp at h
      exact absurd h.1 (by intro e; exact ha (by simp [e]))
    | cons x b =>
      simp only [List.cons_append, List.cons.injEq] at h
      obtain ⟨e1, e2⟩ := ih h.2 (fun m => ha (by simp [m])) (fun m => hb (by simp [m]))
      exact ⟨by rw [h.1, e1], e2⟩

/-- The values of a key. -/
theorem call_right {keys : List KeyDef} (hk : KeysOk keys) (sep : Char) (head n value : Str) (hs : sep ∉ n)
    (hv : ValueOk keys sep (n ++ sep :: value)) (k : KeyDef) (hkm : k ∈ keys) (hn : k.name = n) (t : FishTree)
    (ht : k.values = some t) :
    Right (callForKey (keys.map KeyDef.args) sep n (head ++ (n ++ sep :: value))) t value := by
  unfold callForKey
  rw [args_find, ← hn, find_name hk.1 hkm]
  simp only [Option.map_some, KeyDef.args, ht]
  rcases hv with hv | hv
  · have hnv := hv n value rfl hs
    refine right_simple t (hk.2.2 k hkm t ht).1 (hk.2.2 k hkm t ht).2 _ _ _ ?_
    simp only [completingArg]
    have e : head ++ (k.name ++ sep :: value) = (head ++ k.name ++ [sep]) ++ value := by simp
    rw [e, behindLast_append [sep] _ _ (by intro c hc; simp; intro e; exact hnv (e ▸ hc)), behindLast_end [sep] _ _ (by simp)]
    rfl
  · exact right_blind t (hv k hkm t ht) _ _ _

theorem call_other {keys : List KeyDef} (sep : Char) (n arg : Str)
    (h : ∀ k ∈ keys, k.name = n → k.values = none) : callForKey (keys.map KeyDef.args) sep n arg = [] := by
  unfold callForKey
  rw [args_find]
  cases hf : keys.find? (fun e => e.name = n) with
  | none => rfl
  | some k =>
    obtain ⟨h1, h2⟩ := find_some_name hf
    simp only [Option.map_some, KeyDef.args, h k h1 h2, Option.map_none]

/-- The branch for values, of both helpers: `head` is what is before the pair. -/
theorem value_branch {keys : List KeyDef} (hk : KeysOk keys) (sep : Char) (head p : Str) (hp : sep ∈ p)
    (hv : ValueOk keys sep p) (excluded : Str → Prop) :
    (∀ x ∈ callForKey (keys.map KeyDef.args) sep (beforeFirst sep p) (head ++ p), behindFirst sep p <+: x.1 →
      PairWanted keys sep excluded p (beforeFirst sep p ++ sep :: x.1, x.2)) ∧
    (∀ c, PairWanted keys sep excluded p c → c.1 ≠ p →
      ∃ x ∈ callForKey (keys.map KeyDef.args) sep (beforeFirst sep p) (head ++ p),
        c = (beforeFirst sep p ++ sep :: x.1, x.2)) := by
  obtain ⟨h1, h2⟩ := split_pair hp
  constructor
  · rintro ⟨v, d⟩ hm hpre
    by_cases hex : ∃ k ∈ keys, k.name = beforeFirst sep p ∧ ∃ t, k.values = some t
    · obtain ⟨k, hkm, hn, t, ht⟩ := hex
      rw [h1] at hv
      have hr := call_right hk sep head _ _ h2 hv k hkm hn t ht
      rw [← h1] at hr
      unfold PairWanted
      rw [if_pos hp]
      exact ⟨k, hkm, t, _, v, d, ht, by rw [hn]; exact h1, by rw [hn]; exact h2, hr.1 (v, d) hm hpre, by rw [hn]⟩
    · rw [call_other] at hm
      · simp at hm
      · intro k hkm hn
        cases hvk : k.values with
        | none => rfl
        | some t => exact absurd ⟨k, hkm, hn, t, hvk⟩ hex
  · intro c hc hne
    unfold PairWanted at hc
    rw [if_pos hp] at hc
    obtain ⟨k, hkm, t, value, v, d, ht, he, hs, hw, rfl⟩ := hc
    have hu := pair_unique (he.symm.trans h1) hs h2
    obtain ⟨hu1, hu2⟩ := hu
    rw [h1] at hv
    have hr := call_right hk sep head _ _ h2 hv k hkm hu1 t ht
    rw [← h1] at hr
    rw [hu2] at hw
    have := hr.2 (v, d) hw (by
      intro e
      apply hne
      simp only at e ⊢
      rw [he, e, hu2])
    exact ⟨(v, d), this, by rw [hu1]⟩

theorem take_before (sep : Char) (w : Str) : w.take (w.length - (current sep w).length) = before sep w := rfl

/-- What Fish shows of the lines that the helper prints. -/
def ListShown (keys : List KeyDef) (sep1 sep2 : Char) (arg : Str) (c : Str × Str) : Prop :=
  c ∈ fishKeyValueList sep1 sep2 (keys.map KeyDef.args) none arg ∧ arg <+: c.1

/-- What Fish shows of the lines that the helper prints. -/
def PairShown (keys : List KeyDef) (sep : Char) (arg : Str) (c : Str × Str) : Prop :=
  c ∈ fishKeyValuePair sep (keys.map KeyDef.args) none arg ∧ arg <+: c.1

theorem getLastD_current (sep : Char) (w : Str) : (splitOn sep w).getLastD [] = current sep w := by
  rw [splitOn_items]; rfl

theorem before_prefix_iff {sep : Char} {w v : Str} : w <+: before sep w ++ v ↔ current sep w <+: v := by
  have hb := before_current sep w
  constructor
  · intro h
    rw [hb] at h
    have e : before sep (before sep w ++ current sep w) = before sep w := by rw [← hb]
    rw [e] at h
    exact (List.prefix_append_right_inj _).mp h
  · intro h
    have := (List.prefix_append_right_inj (before sep w)).mpr h
    rw [← hb] at this
    exact this

/-- The three branches of `key_value_list` as two. -/
theorem list_branches (keys : List KeyDef) (sep1 sep2 : Char) (w : Str) :
    fishKeyValueList sep1 sep2 (keys.map KeyDef.args) none w =
      if sep2 ∈ current sep1 w then
        (callForKey (keys.map KeyDef.args) sep2 (beforeFirst sep2 (current sep1 w)) w).map
          (fun v => (before sep1 w ++ (beforeFirst sep2 (current sep1 w) ++ sep2 :: v.1), v.2))
      else (fishRemaining (keys.map KeyDef.args) sep1 sep2 w).map (keyCandidate (before sep1 w) sep2) := by
  have h0 : fishKeyValueList sep1 sep2 (keys.map KeyDef.args) none w = keyValueLines sep1 sep2 (keys.map KeyDef.args) w w := rfl
  rw [h0]
  unfold keyValueLines
  simp only [getLastD_current, List.contains_iff_mem, take_before]
  by_cases hend : w = [] ∨ w.getLast? = some sep1
  · have hc : current sep1 w = [] := by
      rcases hend with rfl | h
      · rfl
      · have hw : w ≠ [] := by intro e; simp [e] at h
        exact (current_empty sep1 w hw).mpr h
    have hb := before_current sep1 w
    rw [hc, List.append_nil] at hb
    have h1 : (w.isEmpty || decide (w.getLast? = some sep1)) = true := by simpa using hend
    rw [if_pos h1, hc, ← hb]
    simp
  · have h1 : (w.isEmpty || decide (w.getLast? = some sep1)) = false := by
      simp only [not_or] at hend
      simp [hend.1, hend.2]
    rw [h1]
    simp only [Bool.false_eq_true, if_false]
    by_cases hs : sep2 ∈ current sep1 w
    · rw [if_pos hs, if_pos hs]
      obtain ⟨h2, -⟩ := split_pair hs
      have hb := before_current sep1 w
      have : w.take (w.length - (behindFirst sep2 (current sep1 w)).length) =
          before sep1 w ++ (beforeFirst sep2 (current sep1 w) ++ [sep2]) := by
        have hw : w = (before sep1 w ++ (beforeFirst sep2 (current sep1 w) ++ [sep2])) ++ behindFirst sep2 (current sep1 w) := by
          conv => lhs; rw [hb, h2]
          simp
        generalize before sep1 w ++ (beforeFirst sep2 (current sep1 w) ++ [sep2]) = a at hw ⊢
        generalize behindFirst sep2 (current sep1 w) = b at hw ⊢
        subst hw
        simp
      rw [this]
      simp
    · rw [if_neg hs, if_neg hs]

/-- **C91 (lists, nothing else)** What is shown for a list of keys with values is wanted: a key that no finished pair
excludes, or a value of the key of the current pair. -/
theorem C91_list_sound (keys : List KeyDef) (hk : KeysOk keys) (sep1 sep2 : Char) (arg : Str)
    (hv : ValueOk keys sep2 (current sep1 arg)) (c : Str × Str) (h : ListShown keys sep1 sep2 arg c) :
    PairsWanted keys sep1 sep2 arg c := by
  obtain ⟨hm, hpre⟩ := h
  have hb := before_current sep1 arg
  rw [list_branches] at hm
  by_cases hs : sep2 ∈ current sep1 arg
  · rw [if_pos hs] at hm
    obtain ⟨⟨v, d⟩, hx, rfl⟩ := List.mem_map.mp hm
    have hb2 := (value_branch hk sep2 (before sep1 arg) _ hs hv (KeyExcluded keys sep1 sep2 arg)).1 (v, d)
    rw [← hb] at hb2
    have hpre := before_prefix_iff.mp hpre
    obtain ⟨h1, -⟩ := split_pair hs
    refine ⟨_, d, hb2 hx ?_, rfl⟩
    rw [h1] at hpre
    have e : beforeFirst sep2 (beforeFirst sep2 (current sep1 arg) ++ sep2 :: behindFirst sep2 (current sep1 arg)) =
        beforeFirst sep2 (current sep1 arg) := by rw [← h1]
    rw [e] at hpre
    have := (List.prefix_append_right_inj _).mp hpre
    exact (List.cons_prefix_cons.mp this).2
  · rw [if_neg hs] at hm
    obtain ⟨e, hx, rfl⟩ := List.mem_map.mp hm
    obtain ⟨k, hkm, rfl, hne⟩ := (remaining_iff hk sep1 sep2 arg e).mp hx
    rw [keyCandidate_text] at hpre ⊢
    refine ⟨k.text sep2, k.desc, ?_, rfl⟩
    unfold PairWanted
    rw [if_neg hs]
    refine ⟨k, hkm, ?_, before_prefix_iff.mp hpre, rfl⟩
    rintro ⟨pair, hp, k', hk1, hk2, hk3⟩
    exact hne ⟨pair, by rw [items_split]; simp [hp], k', hk1, hk2, hk3⟩

/-- **C91 (lists, everything, partial)** What is wanted is shown, unless it is what is typed already. Missing: the
name of a key that is typed completely (`C91_typed_key`), values that contain the separator (`C91_value_cut`). -/
theorem C91_list_complete_partial (keys : List KeyDef) (hk : KeysOk keys) (sep1 sep2 : Char) (arg : Str)
    (hv : ValueOk keys sep2 (current sep1 arg)) (c : Str × Str) (h : PairsWanted keys sep1 sep2 arg c)
    (hne : c.1 ≠ arg) (ht : ∀ k ∈ keys, k.name ≠ current sep1 arg) : ListShown keys sep1 sep2 arg c := by
  have hb := before_current sep1 arg
  obtain ⟨v, d, hw, rfl⟩ := h
  have hvc : v ≠ current sep1 arg := by
    intro e
    apply hne
    simp only [e]
    exact hb.symm
  unfold ListShown
  rw [list_branches]
  by_cases hs : sep2 ∈ current sep1 arg
  · rw [if_pos hs]
    obtain ⟨x, hx, he⟩ := (value_branch hk sep2 (before sep1 arg) _ hs hv (KeyExcluded keys sep1 sep2 arg)).2 _ hw hvc
    rw [← hb] at hx
    simp only [Prod.mk.injEq] at he
    refine ⟨List.mem_map.mpr ⟨x, hx, by rw [← he.1, ← he.2]⟩, before_prefix_iff.mpr ?_⟩
    unfold PairWanted at hw
    rw [if_pos hs] at hw
    obtain ⟨k, hkm, t, value, v', d', ht', he', hs', hw', hc'⟩ := hw
    simp only [Prod.mk.injEq] at hc'
    rw [hc'.1, he']
    exact (List.prefix_append_right_inj _).mpr (List.cons_prefix_cons.mpr ⟨rfl, wanted_prefix t _ _ hw'⟩)
  · rw [if_neg hs]
    unfold PairWanted at hw
    rw [if_neg hs] at hw
    obtain ⟨k, hkm, hex, hpre, hc⟩ := hw
    simp only [Prod.mk.injEq] at hc
    refine ⟨List.mem_map.mpr ⟨k.args, (remaining_iff hk sep1 sep2 arg _).mpr ⟨k, hkm, rfl, ?_⟩, ?_⟩, ?_⟩
    · rintro ⟨pair, hp, k', hk1, hk2, hk3⟩
      rw [items_split] at hp
      rcases List.mem_append.mp hp with hp | hp
      · exact hex ⟨pair, hp, k', hk1, hk2, hk3⟩
      · simp only [List.mem_singleton] at hp
        subst hp
        apply ht k' hk1
        rw [hk2, keyOf_beforeFirst]
        unfold beforeFirst
        have : ∀ l : Str, sep2 ∉ l → l.takeWhile (· != sep2) = l := by
          intro l
          induction l with
          | nil => intro _; rfl
          | cons a l ih =>
            intro hl
            simp only [List.mem_cons, not_or] at hl
            rw [List.takeWhile_cons, if_pos (by simpa using fun e => hl.1 e.symm), ih hl.2]
        exact this _ hs
    · rw [keyCandidate_text, hc.1, hc.2]
    · refine before_prefix_iff.mpr ?_
      rw [hc.1]
      exact hpre

/-- **C91 (pairs)** What is shown for one key with a value is exactly what is wanted, except for what is typed
already. -/
theorem C91_pair_partial (keys : List KeyDef) (hk : KeysOk keys) (sep : Char) (arg : Str) (hv : ValueOk keys sep arg)
    (c : Str × Str) :
    (PairShown keys sep arg c → PairWanted keys sep (fun _ => False) arg c) ∧
    (PairWanted keys sep (fun _ => False) arg c → c.1 ≠ arg → PairShown keys sep arg c) := by
  unfold PairShown fishKeyValuePair
  simp only [completingArg, List.contains_iff_mem]
  by_cases hs : sep ∈ arg
  · rw [if_pos hs]
    obtain ⟨h1, -⟩ := split_pair hs
    have hb := value_branch hk sep [] arg hs hv (fun _ => False)
    rw [List.nil_append] at hb
    constructor
    · rintro ⟨hm, hpre⟩
      obtain ⟨⟨v, d⟩, hx, rfl⟩ := List.mem_map.mp hm
      have h2 := hb.1 (v, d) hx
      simp only [List.append_assoc, List.cons_append, List.nil_append] at hpre h2 ⊢
      apply h2
      rw [h1] at hpre
      have e : beforeFirst sep (beforeFirst sep arg ++ sep :: behindFirst sep arg) = beforeFirst sep arg := by rw [← h1]
      rw [e] at hpre
      exact (List.cons_prefix_cons.mp ((List.prefix_append_right_inj _).mp hpre)).2
    · intro hw hne
      obtain ⟨x, hx, rfl⟩ := hb.2 c hw hne
      refine ⟨List.mem_map.mpr ⟨x, hx, by simp⟩, ?_⟩
      unfold PairWanted at hw
      rw [if_pos hs] at hw
      obtain ⟨k, hkm, t, value, v', d', ht', he', hs', hw', hc'⟩ := hw
      simp only [Prod.mk.injEq] at hc'
      rw [hc'.1]
      conv => lhs; rw [he']
      exact (List.prefix_append_right_inj _).mpr (List.cons_prefix_cons.mpr ⟨rfl, wanted_prefix t _ _ hw'⟩)
  · rw [if_neg hs]
    unfold PairWanted
    rw [if_neg hs]
    constructor
    · rintro ⟨hm, hpre⟩
      rw [List.map_map] at hm
      obtain ⟨k, hkm, rfl⟩ := List.mem_map.mp hm
      simp only [Function.comp_apply, keyCandidate_text, List.nil_append] at hpre ⊢
      exact ⟨k, hkm, id, hpre, rfl⟩
    · rintro ⟨k, hkm, -, hpre, rfl⟩ -
      refine ⟨?_, hpre⟩
      rw [List.map_map]
      exact List.mem_map.mpr ⟨k, hkm, by simp [keyCandidate_text]⟩

/-! ## A case, and cases where the property fails -/

/-- Options of a mount: `ro` and `rw` exclude each other, `uid=` takes a user, `file=` takes a file. -/
def fishMountKeys : List KeyDef :=
  [⟨S "ro", S "read only", none, [S "ro", S "rw"]⟩, ⟨S "rw", S "read and write", none, [S "rw", S "ro"]⟩,
   ⟨S "uid", S "owner", some (.values [(S "ann", []), (S "bob", [])]), [S "uid"]⟩,
   ⟨S "file", S "file", some (.text (fun w => if w = S "x=a" then [(S "x=a.txt", [])] else [])), []⟩]

theorem C91_example : KeysOk fishMountKeys ∧ ValueOk fishMountKeys '=' (current ',' (S "ro,uid=a")) ∧
    ListShown fishMountKeys ',' '=' (S "ro,uid=a") (S "ro,uid=ann", []) ∧
    ListShown fishMountKeys ',' '=' (S "ro,") (S "ro,uid=", S "owner") ∧
    fishKeyValueList ',' '=' (fishMountKeys.map KeyDef.args) none (S "ro,u") =
      [(S "ro,uid=", S "owner"), (S "ro,file=", S "file")] ∧
    PairShown fishMountKeys '=' (S "r") (S "rw", S "read and write") := by
  refine ⟨⟨by decide +kernel, ?_, ?_⟩, Or.inl ?_, ⟨by decide +kernel, by decide +kernel⟩,
    ⟨by decide +kernel, by decide +kernel⟩, by decide +kernel, ⟨by decide +kernel, by decide +kernel⟩⟩
  · intro k hk
    simp only [fishMountKeys, List.mem_cons, List.not_mem_nil, or_false] at hk
    rcases hk with rfl | rfl | rfl | rfl <;> exact ⟨by decide, by decide⟩
  · intro k hk t ht
    simp only [fishMountKeys, List.mem_cons, List.not_mem_nil, or_false] at hk
    rcases hk with rfl | rfl | rfl | rfl
    · simp at ht
    · simp at ht
    · simp only [Option.some.injEq] at ht; subst ht; exact ⟨trivial, trivial⟩
    · simp only [Option.some.injEq] at ht; subst ht; exact ⟨trivial, trivial⟩
  · intro n value h hn hv
    have : ((current ',' (S "ro,uid=a")).count '=') = 1 := by decide +kernel
    rw [h] at this
    have h2 : 0 < value.count '=' := List.count_pos_iff.mpr hv
    simp at this
    omega

/-- A key that is typed completely counts as given: `uid=` is wanted, but not shown. -/
theorem C91_typed_key : PairsWanted fishMountKeys ',' '=' (S "ro,uid") (S "ro,uid=", S "owner") ∧
    fishKeyValueList ',' '=' (fishMountKeys.map KeyDef.args) none (S "ro,uid") = [(S "ro,file=", S "file")] := by
  refine ⟨⟨S "uid=", S "owner", ?_, rfl⟩, by decide +kernel⟩
  unfold PairWanted
  rw [if_neg (by decide +kernel)]
  refine ⟨⟨S "uid", S "owner", some (.values [(S "ann", []), (S "bob", [])]), [S "uid"]⟩, by simp [fishMountKeys], ?_,
    by decide +kernel, rfl⟩
  rintro ⟨pair, hp, k, hk, hn, he⟩
  have hf : finished ',' (S "ro,uid") = [S "ro"] := by decide +kernel
  rw [hf] at hp
  simp only [List.mem_singleton] at hp
  subst hp
  simp only [fishMountKeys, List.mem_cons, List.not_mem_nil, or_false] at hk
  have hk' : keyOf '=' (S "ro") = S "ro" := by decide +kernel
  rw [hk'] at hn
  rcases hk with rfl | rfl | rfl | rfl
  · exact absurd he (by decide)
  · exact absurd hn (by decide)
  · exact absurd hn (by decide)
  · exact absurd hn (by decide)

/-- A value that contains the separator: the completer for files is given `a` instead of `x=a`. -/
theorem C91_value_cut : PairsWanted fishMountKeys ',' '=' (S "file=x=a") (S "file=x=a.txt", []) ∧
    fishKeyValueList ',' '=' (fishMountKeys.map KeyDef.args) none (S "file=x=a") = [] := by
  refine ⟨⟨S "file=x=a.txt", [], ?_, rfl⟩, by decide +kernel⟩
  unfold PairWanted
  rw [if_pos (by decide +kernel)]
  refine ⟨⟨S "file", S "file", some (.text (fun w => if w = S "x=a" then [(S "x=a.txt", [])] else [])), []⟩,
    by simp [fishMountKeys], _, S "x=a", S "x=a.txt", [], rfl, by decide +kernel, by decide, ⟨by decide +kernel, by decide +kernel⟩, rfl⟩

end CC
