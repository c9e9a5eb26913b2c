import Verif.Lemmas.Cli
import Verif.Props.WhenFish
/-!
# C15, C16, C17, C18, C23: options and positionals of command lines
-/

namespace CC

/-! ## C15 -/

theorem short_iff (s : Str) (h : isValidOptionString s = true) :
    isShortOptionString s = true ↔ IsShort s := by
  rw [isValidOptionString_iff] at h
  obtain ⟨hne, c, cs, rfl, _⟩ := h
  unfold isShortOptionString IsShort
  constructor
  · intro h
    simp at h
    subst h
    refine ⟨c, rfl, ?_⟩
    rintro rfl; exact hne rfl
  · rintro ⟨c', h, _⟩
    rw [h]; rfl

theorem long_iff (s : Str) (h : isValidOptionString s = true) :
    isLongOptionString s = true ↔ IsLong s := by
  rw [isValidOptionString_iff] at h
  obtain ⟨hne, c, cs, rfl, _⟩ := h
  unfold isLongOptionString IsLong
  constructor
  · intro h
    simp [startsWith] at h
    subst h
    cases cs with
    | nil => exact absurd rfl hne
    | cons d ds => exact ⟨d, ds, rfl⟩
  · rintro ⟨c', cs', h⟩
    rw [h]; rfl

theorem old_iff (s : Str) (h : isValidOptionString s = true) :
    isOldOptionString s = true ↔ IsOld s := by
  rw [isValidOptionString_iff] at h
  obtain ⟨hne, c, cs, rfl, _⟩ := h
  unfold isOldOptionString IsOld
  constructor
  · intro h
    simp [startsWith] at h
    cases cs with
    | nil => simp at h
    | cons d ds => exact ⟨c, d, ds, rfl, h.1⟩
  · rintro ⟨c', d, cs', h, hc⟩
    rw [h]; simp [startsWith, hc]

/-- **C15**: an accepted option string is of exactly one kind. -/
theorem C15_exactly_one (s : Str) (h : isValidOptionString s = true) :
    (IsShort s ∧ ¬ IsLong s ∧ ¬ IsOld s) ∨ (¬ IsShort s ∧ IsLong s ∧ ¬ IsOld s) ∨
    (¬ IsShort s ∧ ¬ IsLong s ∧ IsOld s) := by
  rw [isValidOptionString_iff] at h
  obtain ⟨hne, c, cs, rfl, _⟩ := h
  cases cs with
  | nil =>
    left
    have hc : c ≠ '-' := by rintro rfl; exact hne rfl
    exact ⟨⟨c, rfl, hc⟩, by rintro ⟨_, _, h⟩; simp at h, by rintro ⟨_, _, _, h, _⟩; simp at h⟩
  | cons d ds =>
    by_cases hc : c = '-'
    · subst hc
      right; left
      exact ⟨by rintro ⟨_, h, _⟩; simp at h, ⟨d, ds, rfl⟩,
        by rintro ⟨_, _, _, h, hh⟩; simp at h; exact hh h.1.symm⟩
    · right; right
      exact ⟨by rintro ⟨_, h, _⟩; simp at h, by rintro ⟨_, _, h⟩; simp at h; exact hc h.1,
        ⟨c, d, ds, rfl, hc⟩⟩

/-- **C15**: for an accepted option the three getters return exactly the strings of their kind, in
order; together they are a rearrangement of all its option strings. -/
theorem C15_getters (o : Opt) (h : o.check = true) :
    (∀ s, s ∈ o.shortStrings ↔ s ∈ o.strings ∧ IsShort s) ∧
    (∀ s, s ∈ o.longStrings ↔ s ∈ o.strings ∧ IsLong s) ∧
    (∀ s, s ∈ o.oldStrings ↔ s ∈ o.strings ∧ IsOld s) ∧
    (o.shortStrings ++ o.longStrings ++ o.oldStrings).Perm o.strings ∧
    o.shortStrings.Sublist o.strings ∧ o.longStrings.Sublist o.strings ∧
    o.oldStrings.Sublist o.strings := by
  have hv : ∀ s ∈ o.strings, isValidOptionString s = true := by
    unfold Opt.check at h
    simp only [Bool.and_eq_true, List.all_eq_true] at h
    exact h.1.1.1.1.2
  refine ⟨?_, ?_, ?_, ?_, List.filter_sublist, List.filter_sublist, List.filter_sublist⟩
  · intro s
    simp only [Opt.shortStrings, List.mem_filter]
    exact and_congr_right fun hs => short_iff s (hv s hs)
  · intro s
    simp only [Opt.longStrings, List.mem_filter]
    exact and_congr_right fun hs => long_iff s (hv s hs)
  · intro s
    simp only [Opt.oldStrings, List.mem_filter]
    exact and_congr_right fun hs => old_iff s (hv s hs)
  · unfold Opt.shortStrings Opt.longStrings Opt.oldStrings
    generalize o.strings = l at hv
    induction l with
    | nil => exact List.Perm.refl _
    | cons s ss ih =>
      have ih' := ih (fun x hx => hv x (by simp [hx]))
      have hs := hv s (by simp)
      have h1 := short_iff s hs
      have h2 := long_iff s hs
      have h3 := old_iff s hs
      rcases C15_exactly_one s hs with ⟨a, b, c⟩ | ⟨a, b, c⟩ | ⟨a, b, c⟩
      · rw [← h1] at a; rw [← h2] at b; rw [← h3] at c
        simp only [List.filter_cons, a, b, c, if_true]
        exact List.Perm.cons s ih'
      · rw [← h1] at a; rw [← h2] at b; rw [← h3] at c
        simp only [List.filter_cons, a, b, c, if_true]
        refine List.Perm.trans ?_ (List.Perm.cons s ih')
        simp only [List.append_assoc, List.cons_append]
        exact List.perm_middle
      · rw [← h1] at a; rw [← h2] at b; rw [← h3] at c
        simp only [List.filter_cons, a, b, c, if_true]
        refine List.Perm.trans ?_ (List.Perm.cons s ih')
        exact List.perm_middle

/-- **C15**: the accepted option strings: a dash followed by at least one character that is neither
a blank nor a comma, except `--` alone. -/
theorem C15_accepted (s : Str) : isValidOptionString s = true ↔ IsOption s := isValidOptionString_iff s

example : ({ strings := [S "-a", S "--all", S "-all"] } : Opt).check = true := by decide

/-! ## C16 -/

/-- The key is the same exactly if the options have the same option strings in some order. -/
theorem C16_key (a b : Opt) (ha : a.check = true) (hb : b.check = true) :
    a.key = b.key ↔ a.strings.Perm b.strings := by
  have valid : ∀ o : Opt, o.check = true → o.strings ≠ [] ∧ ∀ s ∈ o.strings, ' ' ∉ s := by
    intro o h
    unfold Opt.check at h
    simp only [Bool.and_eq_true, List.all_eq_true] at h
    refine ⟨by simpa using h.1.1.1.1.1, ?_⟩
    intro s hs
    have := h.1.1.1.1.2 s hs
    rw [isValidOptionString_iff] at this
    obtain ⟨_, c, cs, rfl, hc⟩ := this
    intro hm
    simp only [List.mem_cons] at hm
    rcases hm with hm | hm
    · exact absurd hm (by decide)
    · have := (hc ' ' (by simpa using hm)).1
      exact absurd this (by decide)
  constructor
  · intro h
    unfold Opt.key Opt.keyWith at h
    have sp : ∀ o : Opt, o.check = true →
        splitOn ' ' (joinWith [' '] (sortStrs o.strings)) = sortStrs o.strings := by
      intro o ho
      obtain ⟨h1, h2⟩ := valid o ho
      have hp := sortStrs_perm o.strings
      apply splitOn_join
      · intro he; rw [he] at hp; exact h1 (List.nil_perm.1 hp)
      · intro w hw; exact h2 w (hp.mem_iff.1 hw)
    have := congrArg (splitOn ' ') h
    rw [sp a ha, sp b hb] at this
    have pa := sortStrs_perm a.strings
    have pb := sortStrs_perm b.strings
    rw [this] at pa
    exact pa.symm.trans pb
  · intro h
    unfold Opt.key Opt.keyWith
    rw [sorted_perm h]

/-- Command and option pairs, in the order they are added. -/
def pairsOf (onlyArgs : Bool) (cmds : List Cmd) : List (Cmd × Opt) :=
  cmds.flatMap (fun c => (eligible onlyArgs c).map (fun o => (c, o)))

/-- The entry of the getter's dictionary made from a group of pairs. -/
def entryOf (e : Str × List (Cmd × Opt)) : Str × Cmd × List Opt :=
  match e.2 with
  | [] => (e.1, .node { prog := [] } none [], [])
  | (c, _) :: _ => (e.1, c, (e.2.filter (fun p => c.eqv p.1)).map (·.2))

theorem entryOf_snoc (k : Str) (g : List (Cmd × Opt)) (c : Cmd) (o : Opt) (hg : g ≠ []) :
    entryOf (k, g ++ [(c, o)]) =
      ((entryOf (k, g)).1, (entryOf (k, g)).2.1,
        if (entryOf (k, g)).2.1.eqv c then (entryOf (k, g)).2.2 ++ [o] else (entryOf (k, g)).2.2) := by
  cases g with
  | nil => exact absurd rfl hg
  | cons p r =>
    obtain ⟨c0, o0⟩ := p
    simp only [entryOf, List.cons_append]
    rw [← List.cons_append, List.filter_append, List.map_append]
    by_cases h : c0.eqv c = true
    · simp [h]
    · simp [h]

theorem getterAdd_group (c : Cmd) (o : Opt) (g : List (Str × List (Cmd × Opt)))
    (hg : ∀ e ∈ g, e.2 ≠ []) :
    getterAdd o c (g.map entryOf) = (groupInsert o.key (c, o) g).map entryOf := by
  induction g with
  | nil => simp [getterAdd, groupInsert, entryOf, Cmd.eqv_refl]
  | cons e r ih =>
    obtain ⟨k, ps⟩ := e
    have hk : (entryOf (k, ps)).1 = k := by unfold entryOf; split <;> rfl
    have e1 : entryOf (k, ps) = (k, (entryOf (k, ps)).2.1, (entryOf (k, ps)).2.2) := by
      conv => lhs; rw [← Prod.eta (entryOf (k, ps)), hk]
    simp only [List.map_cons, groupInsert]
    rw [e1]
    simp only [getterAdd]
    by_cases h : k = o.key
    · rw [if_pos h, if_pos h.symm]
      simp only [List.map_cons]
      rw [entryOf_snoc k ps c o (hg (k, ps) (by simp)), hk]
    · rw [if_neg h, if_neg (fun hh => h hh.symm)]
      simp only [List.map_cons]
      rw [ih (fun e he => hg e (by simp [he])), ← e1]

theorem groupBy_nonempty {α κ : Type} [DecidableEq κ] (f : α → κ) (l : List α) :
    ∀ e ∈ groupBy f l, e.2 ≠ [] := by
  intro e he
  obtain ⟨k, xs⟩ := e
  have h1 := C40_group_by_groups f l k xs he
  have h2 := (C40_group_by_keys f l).2.1 k
  have h3 : k ∈ (groupBy f l).map Prod.fst := List.mem_map.2 ⟨_, he, rfl⟩
  obtain ⟨x, hx, hk⟩ := h2.1 h3
  rw [h1]
  intro hn
  rw [List.filter_eq_nil_iff] at hn
  exact hn x hx (by simpa using hk)

theorem getterFold (ps : List (Cmd × Opt)) :
    ps.foldl (fun d p => getterAdd p.2 p.1 d) [] = (groupBy (fun p => p.2.key) ps).map entryOf := by
  induction ps using snoc_induction with
  | h0 => rfl
  | h1 l x ih =>
    rw [List.foldl_append, ih, groupBy_snoc]
    simp only [List.foldl_cons, List.foldl_nil]
    exact getterAdd_group x.1 x.2 _ (groupBy_nonempty _ _)

theorem getterRun_eq (onlyArgs : Bool) (cmds : List Cmd) :
    getterRun onlyArgs cmds = (groupBy (fun p => p.2.key) (pairsOf onlyArgs cmds)).map entryOf := by
  rw [← getterFold]
  unfold getterRun pairsOf
  generalize ([] : List (Str × Cmd × List Opt)) = d0
  induction cmds generalizing d0 with
  | nil => rfl
  | cons c cs ih =>
    rw [List.foldl_cons, ih, List.flatMap_cons, List.foldl_append]
    congr 1
    unfold eligible
    generalize c.data.options = os
    clear ih
    induction os generalizing d0 with
    | nil => rfl
    | cons o os ih2 =>
      rw [List.foldl_cons, ih2, List.filter_cons]
      by_cases h : (!onlyArgs || truthyList o.complete) = true
      · simp [h]
      · simp [h]

/-- Same-key pairs come from several commands; those equal to the first belong to the nearest. -/
theorem nearest_filter (onlyArgs : Bool) (k : Str) (cmds : List Cmd)
    (hd : cmds.Pairwise (fun a b => b.eqv a = false ∧ a.eqv b = false)) :
    ∀ c o r, (pairsOf onlyArgs cmds).filter (fun p => decide (p.2.key = k)) = (c, o) :: r →
      ∃ pre post, cmds = pre ++ c :: post ∧
        (∀ c' ∈ pre, ∀ o' ∈ eligible onlyArgs c', o'.key ≠ k) ∧
        (((c, o) :: r).filter (fun p => c.eqv p.1)).map (·.2) =
          (eligible onlyArgs c).filter (fun o => decide (o.key = k)) := by
  induction cmds with
  | nil => intro c o r h; simp [pairsOf] at h
  | cons c0 cs ih =>
    intro c o r h
    rw [List.pairwise_cons] at hd
    have hp : pairsOf onlyArgs (c0 :: cs) =
        (eligible onlyArgs c0).map (fun o => (c0, o)) ++ pairsOf onlyArgs cs := by
      simp [pairsOf]
    rw [hp, List.filter_append] at h
    have hm : ((eligible onlyArgs c0).map (fun o => (c0, o))).filter (fun p => decide (p.2.key = k)) =
        ((eligible onlyArgs c0).filter (fun o => decide (o.key = k))).map (fun o => (c0, o)) := by
      rw [List.filter_map]; rfl
    rw [hm] at h
    by_cases he : (eligible onlyArgs c0).filter (fun o => decide (o.key = k)) = []
    · rw [he] at h
      simp only [List.map_nil, List.nil_append] at h
      obtain ⟨pre, post, h1, h2, h3⟩ := ih hd.2 c o r h
      refine ⟨c0 :: pre, post, by rw [h1]; rfl, ?_, h3⟩
      intro c' hc' o' ho'
      simp only [List.mem_cons] at hc'
      rcases hc' with rfl | hc'
      · intro hk
        rw [List.filter_eq_nil_iff] at he
        exact he o' ho' (by simpa using hk)
      · exact h2 c' hc' o' ho'
    · have hc : c = c0 := by
        cases hx : (eligible onlyArgs c0).filter (fun o => decide (o.key = k)) with
        | nil => exact absurd hx he
        | cons y ys => rw [hx] at h; simp at h; exact h.1.1.symm
      subst hc
      refine ⟨[], cs, rfl, by simp, ?_⟩
      rw [← h, List.filter_append, List.map_append]
      have e1 : ((((eligible onlyArgs c).filter (fun o => decide (o.key = k))).map
          (fun o => (c, o))).filter (fun p => c.eqv p.1)).map (·.2) =
          (eligible onlyArgs c).filter (fun o => decide (o.key = k)) := by
        rw [List.filter_map]
        have : (fun p : Cmd × Opt => c.eqv p.1) ∘ (fun o => (c, o)) = fun _ => true := by
          funext o; simp [Cmd.eqv_refl]
        rw [this, List.map_map, List.filter_eq_self.2 (fun _ _ => rfl)]
        have : (fun x : Cmd × Opt => x.2) ∘ (fun o => (c, o)) = id := by funext o; rfl
        rw [this, List.map_id]
      have e2 : (((pairsOf onlyArgs cs).filter (fun p => decide (p.2.key = k))).filter
          (fun p => c.eqv p.1)) = [] := by
        rw [List.filter_eq_nil_iff]
        intro p hp
        have := (List.mem_filter.1 hp).1
        simp only [pairsOf, List.mem_flatMap, List.mem_map] at this
        obtain ⟨c', hc', o', _, rfl⟩ := this
        simp [(hd.1 c' hc').2]
      rw [e1, e2]; simp

theorem searched_eq (parents : List Cmd) (c : Cmd) (w : Bool) :
    (if w then parents ++ [c] else [c]).reverse = searched parents c w := by
  cases w <;> simp [searched]

theorem flatMap_filter_key {g : List (Str × List (Cmd × Opt))} (hn : (g.map Prod.fst).Nodup)
    (f : Str × List (Cmd × Opt) → List Opt) (hf : ∀ e ∈ g, ∀ o ∈ f e, o.key = e.1) (k : Str) :
    (g.flatMap f).filter (fun o => decide (o.key = k)) =
      match g.find? (fun e => decide (e.1 = k)) with
      | none => []
      | some e => f e := by
  induction g with
  | nil => rfl
  | cons e r ih =>
    simp only [List.map_cons, List.nodup_cons] at hn
    rw [List.flatMap_cons, List.filter_append, ih hn.2 (fun e he => hf e (by simp [he])),
      List.find?_cons]
    by_cases h : e.1 = k
    · have h1 : (f e).filter (fun o => decide (o.key = k)) = f e := by
        rw [List.filter_eq_self]
        intro o ho
        have := hf e (by simp) o ho
        simp [this, h]
      have h2 : r.find? (fun e => decide (e.1 = k)) = none := by
        rw [List.find?_eq_none]
        intro e' he' hk
        simp at hk
        exact hn.1 (List.mem_map.2 ⟨e', he', by rw [hk, h]⟩)
      rw [h1, h2]; simp [h]
    · have h1 : (f e).filter (fun o => decide (o.key = k)) = [] := by
        rw [List.filter_eq_nil_iff]
        intro o ho
        have := hf e (by simp) o ho
        simp [this, h]
      rw [h1]; simp [h]

/-- **C16**: for every key, the returned options with that key are exactly those of the nearest
command (going from the command to the root) that has an option with it, in definition order. -/
theorem C16_nearest (root : Cmd) (parents : List Cmd) (c : Cmd) (hat : At root parents c)
    (withParents onlyArgs : Bool) (k : Str) :
    (getOptions parents c withParents onlyArgs).filter (fun o => decide (o.key = k)) =
      match (searched parents c withParents).find?
          (fun x => (eligible onlyArgs x).any (fun o => decide (o.key = k))) with
      | none => []
      | some x => (eligible onlyArgs x).filter (fun o => decide (o.key = k)) := by
  have hd : (searched parents c withParents).Pairwise (fun a b => b.eqv a = false ∧ a.eqv b = false) := by
    cases withParents
    · simp [searched]
    · have := at_chain_distinct hat
      simpa [searched] using this
  unfold getOptions
  simp only [searched_eq]
  rw [getterRun_eq, List.flatMap_map]
  generalize hc : searched parents c withParents = cmds at hd ⊢
  generalize hg : groupBy (fun p : Cmd × Opt => p.2.key) (pairsOf onlyArgs cmds) = g
  have hgrp : ∀ e ∈ g, e.2 = (pairsOf onlyArgs cmds).filter (fun p => decide (p.2.key = e.1)) := by
    intro e he; subst hg; exact C40_group_by_groups _ _ e.1 e.2 he
  have hkeys := C40_group_by_keys (fun p : Cmd × Opt => p.2.key) (pairsOf onlyArgs cmds)
  rw [hg] at hkeys
  have hne := groupBy_nonempty (fun p : Cmd × Opt => p.2.key) (pairsOf onlyArgs cmds)
  rw [hg] at hne
  have hval : ∀ e ∈ g, ∃ pre x post, cmds = pre ++ x :: post ∧
      (∀ c' ∈ pre, ∀ o' ∈ eligible onlyArgs c', o'.key ≠ e.1) ∧
      (entryOf e).2.2 = (eligible onlyArgs x).filter (fun o => decide (o.key = e.1)) ∧
      (eligible onlyArgs x).any (fun o => decide (o.key = e.1)) = true := by
    intro e he
    obtain ⟨k', ps⟩ := e
    have h1 := hgrp _ he
    have h2 := hne _ he
    simp only at h1 h2
    cases ps with
    | nil => exact absurd rfl h2
    | cons p r =>
      obtain ⟨x, o⟩ := p
      obtain ⟨pre, post, e1, e2, e3⟩ := nearest_filter onlyArgs k' cmds hd x o r h1.symm
      refine ⟨pre, x, post, e1, e2, ?_, ?_⟩
      · simp only [entryOf]; exact e3
      · have hmem : o ∈ (((x, o) :: r).filter (fun p => x.eqv p.1)).map (·.2) := by
          rw [List.mem_map]
          exact ⟨(x, o), by simp [Cmd.eqv_refl], rfl⟩
        rw [e3, List.mem_filter] at hmem
        rw [List.any_eq_true]
        exact ⟨o, hmem.1, hmem.2⟩
  rw [flatMap_filter_key hkeys.1 (fun e => (entryOf e).2.2)]
  · cases hf : g.find? (fun e => decide (e.1 = k)) with
    | none =>
      have : cmds.find? (fun x => (eligible onlyArgs x).any (fun o => decide (o.key = k))) = none := by
        rw [List.find?_eq_none]
        intro x hx hany
        rw [List.any_eq_true] at hany
        obtain ⟨o, ho, hk⟩ := hany
        have : k ∈ g.map Prod.fst := by
          rw [hkeys.2.1]
          refine ⟨(x, o), ?_, by simpa using hk⟩
          simp only [pairsOf, List.mem_flatMap, List.mem_map]
          exact ⟨x, hx, o, ho, rfl⟩
        rw [List.mem_map] at this
        obtain ⟨e, he, hek⟩ := this
        rw [List.find?_eq_none] at hf
        exact hf e he (by simpa using hek)
      rw [this]
    | some e =>
      have he := List.mem_of_find?_eq_some hf
      have hek : e.1 = k := by simpa using List.find?_some hf
      obtain ⟨pre, x, post, e1, e2, e3, e4⟩ := hval e he
      have : cmds.find? (fun x => (eligible onlyArgs x).any (fun o => decide (o.key = k))) = some x := by
        rw [List.find?_eq_some_iff_append]
        refine ⟨by rw [← hek]; exact e4, pre, post, e1, ?_⟩
        intro c' hc'
        simp only [Bool.not_eq_true', List.any_eq_false, decide_eq_true_eq]
        intro o ho; rw [← hek]; exact e2 c' hc' o ho
      rw [this]
      simp only
      rw [e3, hek]
  · intro e he o ho
    obtain ⟨pre, x, post, e1, e2, e3, e4⟩ := hval e he
    rw [e3, List.mem_filter] at ho
    simpa using ho.2

/-- **C16**: an option of a command on the path is returned exactly if no nearer command has an
option with the same key. -/
theorem C16_mem (root : Cmd) (parents : List Cmd) (c : Cmd) (hat : At root parents c)
    (withParents onlyArgs : Bool) (o : Opt) :
    o ∈ getOptions parents c withParents onlyArgs ↔
      ∃ pre x post, searched parents c withParents = pre ++ x :: post ∧
        o ∈ eligible onlyArgs x ∧ ∀ x' ∈ pre, ∀ o' ∈ eligible onlyArgs x', o'.key ≠ o.key := by
  have h := C16_nearest root parents c hat withParents onlyArgs o.key
  have hm : o ∈ getOptions parents c withParents onlyArgs ↔
      o ∈ (getOptions parents c withParents onlyArgs).filter (fun o' => decide (o'.key = o.key)) := by
    rw [List.mem_filter]; simp
  rw [hm, h]
  generalize searched parents c withParents = cmds
  cases hf : cmds.find? (fun x => (eligible onlyArgs x).any (fun o' => decide (o'.key = o.key))) with
  | none =>
    simp only [List.not_mem_nil, false_iff]
    rintro ⟨pre, x, post, rfl, ho, _⟩
    rw [List.find?_eq_none] at hf
    exact hf x (by simp) (List.any_eq_true.2 ⟨o, ho, by simp⟩)
  | some x =>
    simp only [List.mem_filter, decide_true, and_true]
    rw [List.find?_eq_some_iff_append] at hf
    obtain ⟨hx, pre, post, e, hpre⟩ := hf
    constructor
    · intro ho
      refine ⟨pre, x, post, e, ho, ?_⟩
      intro x' hx' o' ho' hk
      have := hpre x' hx'
      simp only [Bool.not_eq_true', List.any_eq_false, decide_eq_true_eq] at this
      exact this o' ho' hk
    · rintro ⟨pre', x', post', e', ho, hpre'⟩
      -- both are the first command with the key
      have : pre = pre' ∧ x = x' := by
        rw [e] at e'
        clear e
        induction pre generalizing pre' with
        | nil =>
          cases pre' with
          | nil => simp at e'; exact ⟨rfl, e'.1⟩
          | cons y ys =>
            simp only [List.nil_append, List.cons_append, List.cons.injEq] at e'
            exfalso
            rw [List.any_eq_true] at hx
            obtain ⟨o', ho', hk⟩ := hx
            exact hpre' y (by simp) o' (by rw [← e'.1]; exact ho') (by simpa using hk)
        | cons z zs ih =>
          cases pre' with
          | nil =>
            simp only [List.nil_append, List.cons_append, List.cons.injEq] at e'
            exfalso
            have := hpre z (by simp)
            simp only [Bool.not_eq_true', List.any_eq_false, decide_eq_true_eq] at this
            exact this o (by rw [e'.1]; exact ho) rfl
          | cons y ys =>
            simp only [List.cons_append, List.cons.injEq] at e'
            have := ih (fun a ha => hpre a (by simp [ha])) ys e'.2
              (fun a ha => hpre' a (by simp [ha]))
            exact ⟨by rw [e'.1, this.1], this.2⟩
      rw [this.2]; exact ho

/-- **C16**: the command's own options are always returned. -/
theorem C16_own (root : Cmd) (parents : List Cmd) (c : Cmd) (hat : At root parents c)
    (withParents : Bool) (o : Opt) (ho : o ∈ c.data.options) :
    o ∈ getOptions parents c withParents false := by
  rw [C16_mem root parents c hat]
  cases withParents
  · exact ⟨[], c, [], rfl, by simpa [eligible] using ho, by simp⟩
  · exact ⟨[], c, parents.reverse, rfl, by simpa [eligible] using ho, by simp⟩

/-- **C16**: options with the same key are listed next to each other. -/
theorem C16_together (root : Cmd) (parents : List Cmd) (c : Cmd) (hat : At root parents c)
    (withParents onlyArgs : Bool) (k : Str) :
    ∃ pre post, getOptions parents c withParents onlyArgs =
      pre ++ (getOptions parents c withParents onlyArgs).filter (fun o => decide (o.key = k)) ++ post := by
  have hd : (searched parents c withParents).Pairwise (fun a b => b.eqv a = false ∧ a.eqv b = false) := by
    cases withParents
    · simp [searched]
    · have := at_chain_distinct hat
      simpa [searched] using this
  unfold getOptions
  simp only [searched_eq]
  rw [getterRun_eq, List.flatMap_map]
  generalize searched parents c withParents = cmds at hd ⊢
  have hkeys := (C40_group_by_keys (fun p : Cmd × Opt => p.2.key) (pairsOf onlyArgs cmds)).1
  have hall : ∀ e ∈ groupBy (fun p : Cmd × Opt => p.2.key) (pairsOf onlyArgs cmds),
      ∀ o ∈ (entryOf e).2.2, o.key = e.1 := by
    intro e he o ho
    obtain ⟨k', ps⟩ := e
    have h1 := C40_group_by_groups _ _ k' ps he
    unfold entryOf at ho
    split at ho
    · simp at ho
    · rename_i x y z heq
      simp only [List.mem_map, List.mem_filter] at ho
      obtain ⟨p, ⟨hp, _⟩, rfl⟩ := ho
      rw [h1] at hp
      have := (List.mem_filter.1 hp).2
      simpa using this
  generalize groupBy (fun p : Cmd × Opt => p.2.key) (pairsOf onlyArgs cmds) = g at hkeys hall ⊢
  rw [flatMap_filter_key hkeys (fun e => (entryOf e).2.2) hall]
  cases hf : g.find? (fun e => decide (e.1 = k)) with
  | none => exact ⟨[], _, rfl⟩
  | some e =>
    rw [List.find?_eq_some_iff_append] at hf
    obtain ⟨_, pre, post, rfl, _⟩ := hf
    exact ⟨pre.flatMap (fun e => (entryOf e).2.2), post.flatMap (fun e => (entryOf e).2.2), by simp⟩

/-- A subcommand that redefines `-a` (with the strings in another order) and inherits `-b`. -/
example :
    let root := Cmd.node { prog := S "p", options := [{ strings := [S "-a", S "--all"] }, { strings := [S "-b"] }] }
      (some 1) [.node { prog := S "s", options := [{ strings := [S "--all", S "-a"], final := true }] } none []]
    let c := Cmd.node { prog := S "s", options := [{ strings := [S "--all", S "-a"], final := true }] } none []
    At root [root] c ∧ getOptions [root] c true false =
      [{ strings := [S "--all", S "-a"], final := true }, { strings := [S "-b"] }] := by
  refine ⟨At.child At.root (by simp [Cmd.children]), ?_⟩
  decide

/-! ## C17 -/

theorem optMem_iff (o : Opt) (r : List Opt) : optMem o r = true ↔ ∃ x ∈ r, x.eqv o = true := by
  simp [optMem, List.any_eq_true]

theorem optMem_append (o : Opt) (r s : List Opt) : optMem o (r ++ s) = (optMem o r || optMem o s) := by
  simp [optMem]

/-- The inner loop over the options for one test. -/
theorem inner_loop (p : Opt → Bool) (options : List Opt) : ∀ (r : List Opt),
    r.Pairwise (fun a b => a.eqv b = false) →
    (∀ a b, a.eqv b = true → p a = p b) →
    let r' := options.foldl (fun r o => if p o && !optMem o r then r ++ [o] else r) r
    r'.Pairwise (fun a b => a.eqv b = false) ∧
    (∀ x, x ∈ r' → x ∈ r ∨ (x ∈ options ∧ p x = true)) ∧
    (∀ x ∈ r, x ∈ r') ∧ (∀ x ∈ options, p x = true → optMem x r' = true) := by
  induction options with
  | nil => intro r hr _; exact ⟨hr, fun x hx => Or.inl hx, fun x hx => hx, by simp⟩
  | cons o os ih =>
    intro r hr hp
    simp only [List.foldl_cons]
    by_cases h : (p o && !optMem o r) = true
    · rw [if_pos h]
      simp only [Bool.and_eq_true, Bool.not_eq_true'] at h
      have hr' : (r ++ [o]).Pairwise (fun a b => a.eqv b = false) := by
        rw [List.pairwise_append]
        refine ⟨hr, by simp, ?_⟩
        intro a ha b hb
        simp at hb; subst hb
        rw [← Bool.not_eq_true]
        intro hab
        have : optMem b r = true := (optMem_iff b r).2 ⟨a, ha, hab⟩
        rw [this] at h; exact absurd h.2 (by simp)
      obtain ⟨h1, h2, h3, h4⟩ := ih (r ++ [o]) hr' hp
      refine ⟨h1, ?_, ?_, ?_⟩
      · intro x hx
        rcases h2 x hx with hx | hx
        · rw [List.mem_append] at hx
          rcases hx with hx | hx
          · exact Or.inl hx
          · simp at hx; subst hx; exact Or.inr ⟨by simp, h.1⟩
        · exact Or.inr ⟨by simp [hx.1], hx.2⟩
      · intro x hx; exact h3 x (by simp [hx])
      · intro x hx hpx
        simp only [List.mem_cons] at hx
        rcases hx with rfl | hx
        · exact (optMem_iff _ _).2 ⟨x, h3 x (by simp), Opt.eqv_refl x⟩
        · exact h4 x hx hpx
    · rw [if_neg h]
      obtain ⟨h1, h2, h3, h4⟩ := ih r hr hp
      refine ⟨h1, ?_, h3, ?_⟩
      · intro x hx
        rcases h2 x hx with hx | hx
        · exact Or.inl hx
        · exact Or.inr ⟨by simp [hx.1], hx.2⟩
      · intro x hx hpx
        simp only [List.mem_cons] at hx
        rcases hx with rfl | hx
        · have hm : optMem x r = true := by
            simp only [hpx, Bool.true_and, Bool.not_eq_true', Bool.not_eq_false] at h
            exact h
          obtain ⟨y, hy, hxy⟩ := (optMem_iff _ _).1 hm
          exact (optMem_iff _ _).2 ⟨y, h3 y hy, hxy⟩
        · exact h4 x hx hpx

/-- Membership of a group. -/
def inGroup (g : Str) (o : Opt) : Bool := match o.groups with | none => false | some gs => gs.contains g

theorem inGroup_congr (g : Str) {a b : Opt} (h : a.eqv b = true) : inGroup g a = inGroup g b := by
  unfold inGroup; rw [(Opt.eqv_fields h).2]

theorem conflictLoop_spec (options : List Opt) (groups : List Str) :
    let r := conflictLoop options groups
    r.Pairwise (fun a b => a.eqv b = false) ∧
    (∀ x ∈ r, x ∈ options ∧ ∃ g ∈ groups, inGroup g x = true) ∧
    (∀ x ∈ options, (∃ g ∈ groups, inGroup g x = true) → optMem x r = true) := by
  have key : ∀ (gs : List Str) (r : List Opt), r.Pairwise (fun a b => a.eqv b = false) →
      let r' := gs.foldl (fun r g => options.foldl (fun r o =>
        if inGroup g o && !optMem o r then r ++ [o] else r) r) r
      r'.Pairwise (fun a b => a.eqv b = false) ∧
      (∀ x ∈ r', x ∈ r ∨ (x ∈ options ∧ ∃ g ∈ gs, inGroup g x = true)) ∧
      (∀ x ∈ r, x ∈ r') ∧
      (∀ x ∈ options, (∃ g ∈ gs, inGroup g x = true) → optMem x r' = true) := by
    intro gs
    induction gs with
    | nil => intro r hr; exact ⟨hr, fun x hx => Or.inl hx, fun x hx => hx, by simp⟩
    | cons g gs ih =>
      intro r hr
      simp only [List.foldl_cons]
      obtain ⟨a1, a2, a3, a4⟩ := inner_loop (inGroup g) options r hr (fun a b h => inGroup_congr g h)
      obtain ⟨b1, b2, b3, b4⟩ := ih _ a1
      refine ⟨b1, ?_, ?_, ?_⟩
      · intro x hx
        rcases b2 x hx with hx | ⟨hx, g', hg', h'⟩
        · rcases a2 x hx with hx | hx
          · exact Or.inl hx
          · exact Or.inr ⟨hx.1, g, by simp, hx.2⟩
        · exact Or.inr ⟨hx, g', by simp [hg'], h'⟩
      · intro x hx; exact b3 x (a3 x hx)
      · rintro x hx ⟨g', hg', h'⟩
        simp only [List.mem_cons] at hg'
        rcases hg' with rfl | hg'
        · obtain ⟨y, hy, hyx⟩ := (optMem_iff _ _).1 (a4 x hx h')
          exact (optMem_iff _ _).2 ⟨y, b3 y hy, hyx⟩
        · exact b4 x hx ⟨g', hg', h'⟩
  obtain ⟨h1, h2, _, h4⟩ := key groups [] (by simp)
  refine ⟨h1, ?_, h4⟩
  intro x hx
  rcases h2 x hx with h | h
  · simp at h
  · exact h

theorem removeFirst_spec (o : Opt) (r : List Opt) (hp : r.Pairwise (fun a b => a.eqv b = false))
    (hm : optMem o r = true) :
    ∃ r', removeFirst o r = some r' ∧ r'.Pairwise (fun a b => a.eqv b = false) ∧
      ∀ x, x ∈ r' ↔ x ∈ r ∧ x.eqv o = false := by
  induction r with
  | nil => simp [optMem] at hm
  | cons y ys ih =>
    rw [List.pairwise_cons] at hp
    by_cases h : y.eqv o = true
    · refine ⟨ys, by simp [removeFirst, h], hp.2, ?_⟩
      intro x
      constructor
      · intro hx
        refine ⟨by simp [hx], ?_⟩
        rw [← Bool.not_eq_true]
        intro hxo
        have := hp.1 x hx
        have := Opt.eqv_trans h (Opt.eqv_symm hxo)
        simp_all
      · rintro ⟨hx, hxo⟩
        simp only [List.mem_cons] at hx
        rcases hx with rfl | hx
        · rw [h] at hxo; cases hxo
        · exact hx
    · have hm' : optMem o ys = true := by
        rw [optMem_iff] at hm ⊢
        obtain ⟨z, hz, hzo⟩ := hm
        simp only [List.mem_cons] at hz
        rcases hz with rfl | hz
        · exact absurd hzo h
        · exact ⟨z, hz, hzo⟩
      obtain ⟨r', h1, h2, h3⟩ := ih hp.2 hm'
      refine ⟨y :: r', by simp [removeFirst, h, h1], ?_, ?_⟩
      · rw [List.pairwise_cons]
        exact ⟨fun a ha => hp.1 a ((h3 a).1 ha).1, h2⟩
      · intro x
        simp only [List.mem_cons, h3 x]
        constructor
        · rintro (rfl | ⟨hx, hxo⟩)
          · exact ⟨Or.inl rfl, by simpa using h⟩
          · exact ⟨Or.inr hx, hxo⟩
        · rintro ⟨rfl | hx, hxo⟩
          · exact Or.inl rfl
          · exact Or.inr ⟨hx, hxo⟩

theorem shareGroup_iff (self x : Opt) :
    (∃ g ∈ self.groups.getD [], inGroup g x = true) ↔ ShareGroup self x := by
  unfold ShareGroup inGroup
  constructor
  · rintro ⟨g, hg, h⟩
    cases hs : self.groups with
    | none => rw [hs] at hg; simp at hg
    | some gs =>
      rw [hs] at hg
      cases hx : x.groups with
      | none => rw [hx] at h; cases h
      | some gx =>
        rw [hx] at h
        exact ⟨g, gs, gx, rfl, rfl, by simpa using hg, by simpa using h⟩
  · rintro ⟨g, ga, gb, h1, h2, h3, h4⟩
    refine ⟨g, by rw [h1]; simpa using h3, ?_⟩
    rw [h2]; simpa using h4

/-- **C17**: the conflicting options of an option of the command: no error; no two of them are
equal; none equals the option itself; every one is an option of the command that shares a group
with it; and every option of the command that shares a group and does not equal it is listed
(up to equality of options, which ignores `long_opt_arg_sep`). -/
theorem C17_conflicts (options : List Opt) (self : Opt) (hmem : self ∈ options) :
    ∃ r, conflictingOptions options self = .ok r ∧
      r.Pairwise (fun a b => a.eqv b = false) ∧
      (∀ x ∈ r, x.eqv self = false) ∧
      (∀ x ∈ r, x ∈ options ∧ ShareGroup self x) ∧
      (∀ x ∈ options, ShareGroup self x → x.eqv self = false → ∃ y ∈ r, y.eqv x = true) := by
  unfold conflictingOptions
  by_cases h : truthyList self.groups = true
  · rw [if_pos h]
    obtain ⟨h1, h2, h3⟩ := conflictLoop_spec options (self.groups.getD [])
    have hself : optMem self (conflictLoop options (self.groups.getD [])) = true := by
      apply h3 self hmem
      cases hs : self.groups with
      | none => rw [hs] at h; cases h
      | some gs =>
        cases gs with
        | nil => rw [hs] at h; cases h
        | cons g gs => exact ⟨g, by simp, by simp [inGroup, hs]⟩
    obtain ⟨r', e1, e2, e3⟩ := removeFirst_spec self _ h1 hself
    rw [e1]
    refine ⟨r', rfl, e2, fun x hx => ((e3 x).1 hx).2, ?_, ?_⟩
    · intro x hx
      have := h2 x ((e3 x).1 hx).1
      exact ⟨this.1, (shareGroup_iff self x).1 this.2⟩
    · intro x hx hs hne
      obtain ⟨y, hy, hyx⟩ := (optMem_iff _ _).1 (h3 x hx ((shareGroup_iff self x).2 hs))
      refine ⟨y, (e3 y).2 ⟨hy, ?_⟩, hyx⟩
      rw [← Bool.not_eq_true]
      intro hys
      have := Opt.eqv_trans (Opt.eqv_symm hyx) hys
      rw [this] at hne; cases hne
  · rw [if_neg h]
    refine ⟨[], rfl, by simp, by simp, by simp, ?_⟩
    rintro x _ ⟨g, ga, gb, h1, _, h3, _⟩ _
    rw [h1] at h
    cases ga with
    | nil => simp at h3
    | cons => exact absurd rfl h

theorem shareGroup_symm {a b : Opt} (h : ShareGroup a b) : ShareGroup b a := by
  obtain ⟨g, ga, gb, h1, h2, h3, h4⟩ := h
  exact ⟨g, gb, ga, h2, h1, h4, h3⟩

/-- **C17**: conflicts are mutual. -/
theorem C17_symmetric (options : List Opt) (a b : Opt) (ha : a ∈ options) (hb : b ∈ options)
    (ra rb : List Opt) (h1 : conflictingOptions options a = .ok ra)
    (h2 : conflictingOptions options b = .ok rb) :
    optMem b ra = true ↔ optMem a rb = true := by
  obtain ⟨r1, e1, _, n1, m1, c1⟩ := C17_conflicts options a ha
  obtain ⟨r2, e2, _, n2, m2, c2⟩ := C17_conflicts options b hb
  rw [h1] at e1; cases e1
  rw [h2] at e2; cases e2
  have trans : ∀ {x y z : Opt}, ShareGroup x y → y.eqv z = true → ShareGroup x z := by
    rintro x y z ⟨g, ga, gb, q1, q2, q3, q4⟩ h
    exact ⟨g, ga, gb, q1, by rw [← (Opt.eqv_fields h).2]; exact q2, q3, q4⟩
  have key : ∀ (x y : Opt) (rx ry : List Opt), (∀ z ∈ rx, z.eqv x = false) →
      (∀ z ∈ rx, z ∈ options ∧ ShareGroup x z) → x ∈ options →
      (∀ z ∈ options, ShareGroup y z → z.eqv y = false → ∃ w ∈ ry, w.eqv z = true) →
      optMem y rx = true → optMem x ry = true := by
    intro x y rx ry n m hx c h
    obtain ⟨z, hz, hzy⟩ := (optMem_iff _ _).1 h
    have s1 : ShareGroup x y := trans (m z hz).2 hzy
    have s2 : x.eqv y = false := by
      rw [← Bool.not_eq_true]; intro hxy
      have := n z hz
      have := Opt.eqv_trans hzy (Opt.eqv_symm hxy)
      simp_all
    obtain ⟨w, hw, hwx⟩ := c x hx (shareGroup_symm s1) s2
    exact (optMem_iff _ _).2 ⟨w, hw, hwx⟩
  exact ⟨key a b ra rb n1 m1 ha c2, key b a rb ra n2 m2 hb c1⟩

/-- A concrete command with two groups. -/
example : conflictingOptions
    [{ strings := [S "-a"], groups := some [S "g"] }, { strings := [S "-b"], groups := some [S "g", S "h"] },
      { strings := [S "-c"], groups := some [S "h"] }, { strings := [S "-d"] }]
    { strings := [S "-b"], groups := some [S "g", S "h"] } =
    .ok [{ strings := [S "-a"], groups := some [S "g"] }, { strings := [S "-c"], groups := some [S "h"] }] := rfl

/-- An option that was not added to the command (as `MutuallyExclusiveGroup.add_option` allows) has
no conflicts: the call fails with ValueError. -/
theorem C17_not_added : conflictingOptions [] { strings := [S "-a"], groups := some [S "g"] } =
    .error .valueError := rfl

/-! ## C18 -/

theorem highest_eq (ps : List Pos) : highestNumber ps = (ps.map (·.number)).foldr max 0 := by
  unfold highestNumber
  have : ∀ (h : Nat), ps.foldl (fun h p => max h p.number) h = max h ((ps.map (·.number)).foldr max 0) := by
    induction ps with
    | nil => intro h; simp
    | cons p ps ih => intro h; simp only [List.foldl_cons, ih, List.map_cons, List.foldr_cons]; omega
  rw [this]; simp

theorem le_highest (ps : List Pos) (p : Pos) (h : p ∈ ps) :
    p.number ≤ (ps.map (·.number)).foldr max 0 := by
  induction ps with
  | nil => simp at h
  | cons q qs ih =>
    simp only [List.mem_cons] at h
    simp only [List.map_cons, List.foldr_cons]
    rcases h with rfl | h
    · omega
    · have := ih h; omega

/-- **C18**: the absolute number is the own number plus the widths of all ancestors. -/
theorem C18_absolute (parents : List Cmd) (n : Nat) (hn : 1 ≤ n) :
    positionalNum parents n = n + (parents.map width).sum := by
  unfold positionalNum positionalIndex
  have : ∀ m, parents.foldl (fun n c => n + highestNumber c.data.positionals +
      (if c.sub.isSome = true then 1 else 0)) m = m + (parents.map width).sum := by
    induction parents with
    | nil => intro m; simp
    | cons c cs ih =>
      intro m
      rw [List.foldl_cons, ih, List.map_cons, List.sum_cons, highest_eq]
      unfold width; omega
  rw [this]; omega

/-- **C18**: within a command, every positional comes before the subcommand slot; and every
positional of a subcommand (or of its subcommands) comes after that slot. -/
theorem C18_levels (root : Cmd) (parents : List Cmd) (c : Cmd) (_hat : At root parents c)
    (hw : WellNumbered c) (slot : Nat) (hs : c.sub = some slot) :
    (∀ p ∈ c.data.positionals, 1 ≤ p.number →
      positionalNum parents p.number < positionalNum parents slot) ∧
    (∀ rest n, 1 ≤ n → positionalNum parents slot < positionalNum (parents ++ [c] ++ rest) n) := by
  have hslot := hw slot hs
  have h1 : 1 ≤ slot := by omega
  constructor
  · intro p hp hpn
    rw [C18_absolute parents _ hpn, C18_absolute parents _ h1]
    have := le_highest _ p hp
    omega
  · intro rest n hn
    rw [C18_absolute parents _ h1, C18_absolute _ _ hn]
    simp only [List.map_append, List.sum_append, List.map_cons, List.map_nil, List.sum_cons,
      List.sum_nil]
    have : width c = slot := by unfold width; rw [hs, hslot]; simp
    omega

/-- **C18**: positionals of different commands on one path never have the same number. -/
theorem C18_no_overlap (root : Cmd) (parents : List Cmd) (c : Cmd) (hat : At root parents c)
    (hw : WellNumbered c) (rest : List Cmd) (d : Cmd) (_hd : At root (parents ++ [c] ++ rest) d)
    (slot : Nat) (hs : c.sub = some slot) (p q : Pos) (hp : p ∈ c.data.positionals) (hpn : 1 ≤ p.number)
    (hqn : 1 ≤ q.number) :
    positionalNum parents p.number < positionalNum (parents ++ [c] ++ rest) q.number := by
  obtain ⟨h1, h2⟩ := C18_levels root parents c hat hw slot hs
  exact Nat.lt_trans (h1 p hp hpn) (h2 rest q.number hqn)

/-- **C18**: `add_subcommands` numbers the slot correctly for the positionals present. -/
theorem C18_add_subcommands (c c' : Cmd) (h : c.addSubcommands = .ok c') : WellNumbered c' := by
  cases c with
  | node d s ch =>
    cases s with
    | some n => simp [Cmd.addSubcommands] at h
    | none =>
      simp only [Cmd.addSubcommands, Except.ok.injEq] at h
      subst h
      intro n hn
      simp only [Cmd.sub, Option.some.injEq] at hn
      rw [← hn, Cmd.highestPositionalNum, highest_eq]
      simp [Cmd.data, Cmd.sub]

/-- **C18**: but if a positional is added after `add_subcommands`, the slot keeps its old number, so
it coincides with the positional (until the command is copied, see C20). -/
theorem C18_added_later_false :
    ∃ (d : CmdData) (c : Cmd) (p : Pos), (Cmd.node d none []).addSubcommands = .ok c ∧
      p.number = 1 ∧
      ¬ WellNumbered (.node { d with positionals := d.positionals ++ [p] } c.sub c.children) := by
  refine ⟨{ prog := S "p" }, _, { number := 1 }, rfl, rfl, ?_⟩
  intro h
  have := h 1 rfl
  exact absurd this (by decide)

example : positionalNum [.node { prog := S "p", positionals := [{ number := 1 }, { number := 2 }] } (some 3) []] 1
    = 4 := rfl

/-! ## C23 -/

theorem byStrings_spec (options : List Opt) (ss : List Str) : ∀ (r : List Opt),
    r.Pairwise (fun a b => a.eqv b = false) →
    (∀ res, optionsByStringsGo options r ss = .ok res →
      (∀ s ∈ ss, ∃ o ∈ options, s ∈ o.strings) ∧
      res.Pairwise (fun a b => a.eqv b = false) ∧
      (∃ new, res = r ++ new) ∧
      (∀ x ∈ res, x ∈ r ∨ ∃ s ∈ ss, findOption options s = some x) ∧
      (∀ s ∈ ss, ∀ x, findOption options s = some x → optMem x res = true)) ∧
    (∀ e, optionsByStringsGo options r ss = .error e →
      e = .crazyError ∧ ∃ s ∈ ss, ∀ o ∈ options, s ∉ o.strings) := by
  induction ss with
  | nil =>
    intro r hr
    refine ⟨?_, ?_⟩
    · intro res h
      simp only [optionsByStringsGo, Except.ok.injEq] at h
      subst h
      exact ⟨by simp, hr, ⟨[], by simp⟩, fun x hx => Or.inl hx, by simp⟩
    · intro e h; simp [optionsByStringsGo] at h
  | cons s ss ih =>
    intro r hr
    simp only [optionsByStringsGo]
    cases hf : findOption options s with
    | none =>
      refine ⟨by intro res h; simp at h, ?_⟩
      intro e h
      simp at h
      refine ⟨h.symm, s, by simp, ?_⟩
      intro o ho hs
      unfold findOption at hf
      rw [List.find?_eq_none] at hf
      exact hf o ho (by simpa using hs)
    | some o =>
      simp only
      have hr' : (if optMem o r = true then r else r ++ [o]).Pairwise (fun a b => a.eqv b = false) := by
        split
        · exact hr
        · rename_i h
          rw [List.pairwise_append]
          refine ⟨hr, by simp, ?_⟩
          intro a ha b hb
          simp at hb; subst hb
          rw [← Bool.not_eq_true]
          intro hab
          exact h ((optMem_iff _ _).2 ⟨a, ha, hab⟩)
      obtain ⟨i1, i2⟩ := ih _ hr'
      have hos : o ∈ options ∧ s ∈ o.strings := by
        unfold findOption at hf
        exact ⟨List.mem_of_find?_eq_some hf, by simpa using List.find?_some hf⟩
      refine ⟨?_, ?_⟩
      · intro res h
        obtain ⟨a1, a2, ⟨new, a3⟩, a4, a5⟩ := i1 res h
        refine ⟨?_, a2, ?_, ?_, ?_⟩
        · intro t ht
          simp only [List.mem_cons] at ht
          rcases ht with rfl | ht
          · exact ⟨o, hos⟩
          · exact a1 t ht
        · split at a3
          · exact ⟨new, a3⟩
          · exact ⟨o :: new, by rw [a3]; simp⟩
        · intro x hx
          rcases a4 x hx with hx | ⟨t, ht, hx⟩
          · split at hx
            · exact Or.inl hx
            · rw [List.mem_append] at hx
              rcases hx with hx | hx
              · exact Or.inl hx
              · simp at hx; subst hx; exact Or.inr ⟨s, by simp, hf⟩
          · exact Or.inr ⟨t, by simp [ht], hx⟩
        · intro t ht x hx
          simp only [List.mem_cons] at ht
          rcases ht with rfl | ht
          · rw [hf] at hx; cases hx
            rw [a3, optMem_append]
            have : optMem o (if optMem o r = true then r else r ++ [o]) = true := by
              split
              · rename_i h; exact h
              · rw [optMem_append]; simp [optMem, Opt.eqv_refl]
            rw [this]; rfl
          · exact a5 t ht x hx
      · intro e h
        obtain ⟨b1, t, ht, b2⟩ := i2 e h
        exact ⟨b1, t, by simp [ht], b2⟩

/-- **C23**: the call fails (with a CrazyError) exactly if a given string belongs to no option. -/
theorem C23_fails_iff (options : List Opt) (ss : List Str) :
    (∃ e, optionsByStrings options ss = .error e) ↔ ∃ s ∈ ss, ∀ o ∈ options, s ∉ o.strings := by
  obtain ⟨h1, h2⟩ := byStrings_spec options ss [] (by simp)
  constructor
  · rintro ⟨e, he⟩; exact (h2 e he).2
  · rintro ⟨s, hs, hn⟩
    cases h : optionsByStrings options ss with
    | error e => exact ⟨e, rfl⟩
    | ok res =>
      obtain ⟨o, ho, hso⟩ := (h1 res h).1 s hs
      exact absurd hso (hn o ho)

/-- **C23**: otherwise no two returned options are equal, each is the first option of the command
containing one of the given strings, and for every given string the first option containing it is
among them (up to equality of options). -/
theorem C23_result (options : List Opt) (ss : List Str) (res : List Opt)
    (h : optionsByStrings options ss = .ok res) :
    res.Pairwise (fun a b => a.eqv b = false) ∧
    (∀ x ∈ res, ∃ s ∈ ss, options.find? (fun o => decide (s ∈ o.strings)) = some x) ∧
    (∀ s ∈ ss, ∃ x, options.find? (fun o => decide (s ∈ o.strings)) = some x ∧
      ∃ y ∈ res, y.eqv x = true) := by
  obtain ⟨h1, _⟩ := byStrings_spec options ss [] (by simp)
  obtain ⟨a1, a2, _, a4, a5⟩ := h1 res h
  have e : ∀ s, findOption options s = options.find? (fun o => decide (s ∈ o.strings)) := by
    intro s; unfold findOption; congr 1; funext o; simp
  refine ⟨a2, ?_, ?_⟩
  · intro x hx
    rcases a4 x hx with h | ⟨s, hs, h⟩
    · simp at h
    · exact ⟨s, hs, by rw [← e]; exact h⟩
  · intro s hs
    obtain ⟨o, ho, hso⟩ := a1 s hs
    cases hf : findOption options s with
    | none =>
      unfold findOption at hf
      rw [List.find?_eq_none] at hf
      exact absurd (by simpa using hso) (hf o ho)
    | some x =>
      refine ⟨x, by rw [← e]; exact hf, ?_⟩
      exact (optMem_iff _ _).1 (a5 s hs x hf)

/-- **C23**: the options come in the order in which they are first mentioned: the options found for
a beginning of the list are the beginning of the options found for the whole list. -/
theorem C23_order (options : List Opt) (ss ts : List Str) (res : List Opt)
    (h : optionsByStrings options (ss ++ ts) = .ok res) :
    ∃ r new, optionsByStrings options ss = .ok r ∧ res = r ++ new := by
  have key : ∀ ss r, optionsByStringsGo options r (ss ++ ts) = .ok res →
      ∃ r', optionsByStringsGo options r ss = .ok r' ∧ optionsByStringsGo options r' ts = .ok res ∧
        (r.Pairwise (fun a b => a.eqv b = false) → r'.Pairwise (fun a b => a.eqv b = false)) := by
    intro ss
    induction ss with
    | nil => intro r h; exact ⟨r, rfl, h, id⟩
    | cons s ss ih =>
      intro r h
      simp only [List.cons_append, optionsByStringsGo] at h ⊢
      cases hf : findOption options s with
      | none => rw [hf] at h; simp at h
      | some o =>
        rw [hf] at h
        simp only at h ⊢
        obtain ⟨r', e1, e2, e3⟩ := ih _ h
        refine ⟨r', e1, e2, fun hr => e3 ?_⟩
        split
        · exact hr
        · rename_i hm
          rw [List.pairwise_append]
          refine ⟨hr, by simp, ?_⟩
          intro a ha b hb
          simp at hb; subst hb
          rw [← Bool.not_eq_true]
          intro hab
          exact hm ((optMem_iff _ _).2 ⟨a, ha, hab⟩)
  obtain ⟨r, e1, e2, e3⟩ := key ss [] h
  obtain ⟨new, hn⟩ := ((byStrings_spec options ts r (e3 (by simp))).1 res e2).2.2.1
  exact ⟨r, new, e1, hn⟩

example : optionsByStrings [{ strings := [S "-a", S "--all"] }, { strings := [S "-b"] }]
    [S "-b", S "--all", S "-a"] = .ok [{ strings := [S "-b"] }, { strings := [S "-a", S "--all"] }] := rfl

end CC
