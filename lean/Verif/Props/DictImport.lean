import Verif.Props.Dictionary
/-!
# C27: which lists of dictionaries are accepted, and the tree they give
-/

namespace CC

/-! ## Specification -/

/-- `ParsedAll docs items`: document number i defines the command with the path and attributes of
item number i (the last word of the path is the name of the command). -/
inductive ParsedAll : List Val → List (List Str × CmdData) → Prop
  | nil : ParsedAll [] []
  | cons {v vs e p d items} : checkProg v = .ok (e, p) → dictToCmd e (p.getLastD []) = .ok d →
      ParsedAll vs items → ParsedAll (v :: vs) ((p, d) :: items)

/-- No path is defined twice, every subcommand comes after its parent, and there is exactly one main
command. -/
structure Consistent (items : List (List Str × CmdData)) : Prop where
  once : (items.map Prod.fst).Nodup
  parent : ∀ i p d, items[i]? = some (p, d) → 2 ≤ p.length →
    ∃ (j : Nat) (d' : CmdData), j < i ∧ items[j]? = some (p.dropLast, d')
  main : ∃ n, ∀ p, (p ∈ items.map Prod.fst ∧ p.length = 1) ↔ p = [n]

/-- The names of the direct subcommands of a path, in the order of their definition. -/
def kidsOf (items : List (List Str × CmdData)) (p : List Str) : List Str :=
  (items.filter (fun it => decide (it.1.dropLast = p))).map (fun it => it.1.getLastD [])

/-- The documents after the substitution of defines and the compatibility pass. -/
def processed (docs : List Val) : List Val := (replaceDefinesInDocuments docs).map fixCommandline

/-! ## Finding commands by name -/

/-- The command with the given path below a command. -/
def findAt : Cmd → List Str → Option Cmd
  | c, [] => some c
  | .node _ s ch, n :: ns => if s.isNone then none else match subByName ch n with
    | none => none
    | some c => findAt c ns

/-- What is observed at a path: attributes, slot number, names of the subcommands. -/
def view (c : Cmd) : CmdData × Option Nat × List Str :=
  (c.data, c.sub, c.children.map (fun y => y.data.prog))

theorem subByName_split (pre : List Cmd) (c : Cmd) (post : List Cmd) (n : Str)
    (h : n ∉ pre.map (fun y => y.data.prog)) (hc : c.data.prog = n) :
    subByName (pre ++ c :: post) n = some c := by
  unfold subByName
  have : pre.find? (fun c => decide (c.data.prog = n)) = none := by
    rw [List.find?_eq_none]
    intro x hx hd
    exact h (List.mem_map.2 ⟨x, hx, of_decide_eq_true hd⟩)
  rw [List.find?_append, this]
  simp [hc]

theorem subByName_other (pre : List Cmd) (c c' : Cmd) (post : List Cmd) (m : Str)
    (hc : c.data.prog ≠ m) (hc' : c'.data.prog ≠ m) :
    subByName (pre ++ c' :: post) m = subByName (pre ++ c :: post) m := by
  unfold subByName
  simp only [List.find?_append, List.find?_cons, hc, hc', decide_false]

/-- A successful update finds its command, changes what is seen below it, and nothing else. -/
theorem updateAt_view {r r' : Cmd} {p : List Str} {f : Cmd → Except Err Cmd}
    (h : updateAt r p f = .ok r') (hf : ∀ c c', f c = .ok c' → c'.data.prog = c.data.prog) :
    ∃ x x', findAt r p = some x ∧ f x = .ok x' ∧ r'.data.prog = r.data.prog ∧
      (∀ q, findAt r' (p ++ q) = findAt x' q) ∧
      (∀ q, ¬ p <+: q → (findAt r' q).map view = (findAt r q).map view) := by
  induction p generalizing r r' with
  | nil =>
    refine ⟨r, r', by cases r; rfl, by cases r; exact h, hf _ _ (by cases r; exact h), ?_, ?_⟩
    · intro q; rfl
    · intro q hq; exact absurd (List.nil_prefix) hq
  | cons n ns ih =>
    cases r with
    | node d s ch =>
      rw [updateAt_cons_ok] at h
      obtain ⟨hs, pre, c, post, c', rfl, h1, h2, hu, rfl⟩ := h
      obtain ⟨k, rfl⟩ := Option.isSome_iff_exists.1 hs
      obtain ⟨x, x', i1, i2, i3, i4, i5⟩ := ih hu
      have e1 := subByName_split pre c post n h1 h2
      have e2 := subByName_split pre c' post n h1 (by rw [i3, h2])
      refine ⟨x, x', ?_, i2, rfl, ?_, ?_⟩
      · simp [findAt, e1, i1]
      · intro q
        simp [findAt, e2, i4]
      · intro q hq
        cases q with
        | nil =>
          simp [findAt, view, node_data, node_sub, node_children, i3]
        | cons m ms =>
          by_cases hm : m = n
          · subst hm
            simp only [findAt, Option.isNone_some, Bool.false_eq_true, if_false, e1, e2]
            apply i5
            intro hp
            exact hq (List.cons_prefix_cons.2 ⟨rfl, hp⟩)
          · simp only [findAt, Option.isNone_some, Bool.false_eq_true, if_false]
            rw [subByName_other pre c c' post m (by rw [h2]; exact fun e => hm e.symm)
              (by rw [i3, h2]; exact fun e => hm e.symm)]

theorem findAt_append {r x : Cmd} {p : List Str} (h : findAt r p = some x) (q : List Str) :
    findAt r (p ++ q) = findAt x q := by
  induction p generalizing r with
  | nil => cases r; simp only [findAt, Option.some.injEq] at h; rw [List.nil_append, h]
  | cons n ns ih =>
    cases r with
    | node rd rs rch =>
      simp only [findAt] at h
      simp only [List.cons_append, findAt]
      split at h
      · cases h
      · rename_i hs
        rw [if_neg hs]
        split at h
        · cases h
        · exact ih h

theorem updateAt_of_find {r x x' : Cmd} {p : List Str} {f : Cmd → Except Err Cmd}
    (h : findAt r p = some x) (hx : f x = .ok x') : ∃ r', updateAt r p f = .ok r' := by
  induction p generalizing r with
  | nil =>
    cases r
    simp only [findAt, Option.some.injEq] at h
    subst h
    exact ⟨x', hx⟩
  | cons n ns ih =>
    cases r with
    | node d s ch =>
      simp only [findAt] at h
      cases s with
      | none => simp at h
      | some k =>
        simp only [Option.isNone_some, Bool.false_eq_true, if_false] at h
        cases hsub : subByName ch n with
        | none => rw [hsub] at h; cases h
        | some c =>
          rw [hsub] at h
          obtain ⟨c', hc'⟩ := ih h
          have hmem : n ∈ ch.map (fun y => y.data.prog) := by
            unfold subByName at hsub
            have h1 := List.mem_of_find?_eq_some hsub
            have h2 := List.find?_some hsub
            exact List.mem_map.2 ⟨c, h1, of_decide_eq_true h2⟩
          obtain ⟨pre, c0, post, rfl, h1, h2⟩ := split_first n ch hmem
          have := subByName_split pre c0 post n h1 h2
          rw [this] at hsub
          simp only [Option.some.injEq] at hsub
          subst hsub
          exact ⟨_, updateAt_cons_ok.2 ⟨rfl, pre, c0, post, c', rfl, h1, h2, hc', rfl⟩⟩

/-! ## The tree represents the items -/

/-- What should be seen at a path. -/
def expected (rd : CmdData) (items : List (List Str × CmdData)) (q : List Str) :
    Option (CmdData × Option Nat × List Str) :=
  (if q = [] then some rd else items.lookup q).map (fun d =>
    (d, if kidsOf items q = [] then none else some (highestNumber d.positionals + 1), kidsOf items q))

/-- The tree below the internal root shows the items. -/
structure Rep (rd : CmdData) (r : Cmd) (items : List (List Str × CmdData)) : Prop where
  view : ∀ q, (findAt r q).map view = expected rd items q
  nonempty : ∀ it ∈ items, it.1 ≠ []
  closed : ∀ it ∈ items, it.1.dropLast = [] ∨ it.1.dropLast ∈ items.map Prod.fst
  nodup : (items.map Prod.fst).Nodup

theorem lookup_append_single (items : List (List Str × CmdData)) (p q : List Str) (d : CmdData) :
    (items ++ [(p, d)]).lookup q = (items.lookup q).or (if q = p then some d else none) := by
  induction items with
  | nil =>
    simp only [List.nil_append, List.lookup_cons, List.lookup_nil]
    by_cases h : q = p
    · simp [h]
    · have : (q == p) = false := by simpa using h
      simp [h, this]
  | cons it items ih =>
    obtain ⟨a, b⟩ := it
    simp only [List.cons_append, List.lookup_cons]
    cases q == a
    · exact ih
    · rfl

theorem lookup_none_iff (items : List (List Str × CmdData)) (q : List Str) :
    items.lookup q = none ↔ q ∉ items.map Prod.fst := by
  induction items with
  | nil => simp
  | cons it items ih =>
    obtain ⟨a, b⟩ := it
    simp only [List.lookup_cons, List.map_cons, List.mem_cons, not_or]
    by_cases h : q = a
    · simp [h]
    · have : (q == a) = false := by simpa using h
      simp [this, ih, h]

theorem lookup_mem (items : List (List Str × CmdData)) (hn : (items.map Prod.fst).Nodup) (q : List Str) (d : CmdData) :
    items.lookup q = some d ↔ (q, d) ∈ items := by
  induction items with
  | nil => simp
  | cons it items ih =>
    obtain ⟨a, b⟩ := it
    simp only [List.map_cons, List.nodup_cons] at hn
    simp only [List.lookup_cons, List.mem_cons, Prod.mk.injEq]
    by_cases h : q = a
    · subst h
      simp only [beq_self_eq_true, true_and, Option.some.injEq]
      constructor
      · intro e; exact Or.inl e.symm
      · rintro (e | e)
        · exact e.symm
        · exact absurd (List.mem_map.2 ⟨_, e, rfl⟩) hn.1
    · have : (q == a) = false := by simpa using h
      simp [this, h, ih hn.2]

theorem kids_append (items : List (List Str × CmdData)) (p : List Str) (n : Str) (d : CmdData) (q : List Str) :
    kidsOf (items ++ [(p ++ [n], d)]) q = kidsOf items q ++ (if p = q then [n] else []) := by
  unfold kidsOf
  rw [List.filter_append, List.map_append]
  by_cases h : p = q
  · simp [h]
  · simp [h]

theorem mem_kids (items : List (List Str × CmdData)) (hne : ∀ it ∈ items, it.1 ≠ []) (p : List Str) (n : Str) :
    n ∈ kidsOf items p ↔ p ++ [n] ∈ items.map Prod.fst := by
  unfold kidsOf
  simp only [List.mem_map, List.mem_filter, decide_eq_true_eq]
  constructor
  · rintro ⟨it, ⟨hm, hd⟩, hl⟩
    refine ⟨it, hm, ?_⟩
    have := List.dropLast_concat_getLast (hne it hm)
    rw [← this, hd]
    congr
    rw [← hl, List.getLastD_eq_getLast?, List.getLast?_eq_some_getLast (hne it hm)]
    rfl
  · rintro ⟨it, hm, he⟩
    exact ⟨it, ⟨hm, by rw [he]; simp⟩, by rw [he]; simp⟩

theorem rep_attach {rd : CmdData} {r r' : Cmd} {items : List (List Str × CmdData)} {p : List Str} {d : CmdData}
    (hr : Rep rd r items) (h : updateAt r p (attach d) = .ok r') :
    p ++ [d.prog] ∉ items.map Prod.fst ∧ (p = [] ∨ p ∈ items.map Prod.fst) ∧
    Rep rd r' (items ++ [(p ++ [d.prog], d)]) := by
  obtain ⟨x, x', h1, h2, _, h4, h5⟩ := updateAt_view h (by
    intro c c' hc; rw [attach_ok] at hc; rw [hc.2]; rfl)
  have hv := hr.view p
  rw [h1] at hv
  have hp : p = [] ∨ p ∈ items.map Prod.fst := by
    by_cases hp : p = []
    · exact Or.inl hp
    · right
      by_cases hm : p ∈ items.map Prod.fst
      · exact hm
      · rw [← lookup_none_iff] at hm
        simp [expected, hp, hm] at hv
  unfold expected at hv
  rw [attach_ok] at h2
  obtain ⟨hn, rfl⟩ := h2
  cases hd0 : (if p = [] then some rd else items.lookup p) with
  | none => rw [hd0] at hv; simp at hv
  | some d0 =>
  rw [hd0] at hv
  cases x with
  | node xd xs xch =>
  simp only [Option.map_some, Option.some.injEq, view, Prod.mk.injEq, node_data, node_sub, node_children] at hv
  obtain ⟨rfl, hxs, hkids⟩ := hv
  simp only [node_data, node_sub, node_children] at hn h4
  rw [hkids, mem_kids items hr.nonempty] at hn
  refine ⟨hn, hp, ?_, ?_, ?_, ?_⟩
  · intro q
    by_cases hpq : p <+: q
    · obtain ⟨t, rfl⟩ := hpq
      rw [h4]
      cases t with
      | nil =>
        simp only [List.append_nil, findAt, Option.map_some, expected, kids_append]
        have hl : (if p = [] then some rd else (items ++ [(p ++ [d.prog], d)]).lookup p) = some xd := by
          rw [lookup_append_single, if_neg (by simp : ¬ p = p ++ [d.prog]), Option.or_none]
          exact hd0
        rw [hl]
        have hnum : xs.getD (highestNumber xd.positionals + 1) = highestNumber xd.positionals + 1 := by
          rw [hxs]; split <;> rfl
        simp [view, node_data, node_sub, node_children, hkids, hnum]
      | cons m t =>
        simp only [findAt, Option.isNone_some, Bool.false_eq_true, if_false]
        by_cases hm : m = d.prog
        · subst hm
          have hnot : d.prog ∉ xch.map (fun y => y.data.prog) := by
            rw [hkids, mem_kids items hr.nonempty]; exact hn
          rw [subByName_split xch (.node d none []) [] d.prog hnot rfl]
          have hkid : ∀ t', kidsOf items (p ++ d.prog :: t') = [] := by
            intro t'
            rw [List.eq_nil_iff_forall_not_mem]
            intro m hm
            rw [mem_kids items hr.nonempty] at hm
            -- every prefix of a defined path is defined
            have hpre : ∀ (l : List Str), p ++ d.prog :: l ∈ items.map Prod.fst → False := by
              intro l
              induction l using snoc_induction with
              | h0 => exact hn
              | h1 l x ihl =>
                intro hmem
                obtain ⟨it, hit, e⟩ := List.mem_map.1 hmem
                have := hr.closed it hit
                rw [e, show p ++ d.prog :: (l ++ [x]) = (p ++ d.prog :: l) ++ [x] by simp,
                  List.dropLast_concat] at this
                rcases this with h | h
                · simp at h
                · exact ihl h
            apply hpre (t' ++ [m])
            simpa using hm
          cases t with
          | nil =>
            have hl : items.lookup (p ++ [d.prog]) = none := (lookup_none_iff _ _).2 hn
            simp only [findAt, Option.map_some, expected, kids_append, lookup_append_single]
            rw [hkid []]
            simp [hl, view, node_data, node_sub, node_children]
          | cons m' t' =>
            have hl : items.lookup (p ++ d.prog :: m' :: t') = none := by
              rw [lookup_none_iff]
              intro hm
              have : m' :: t' ≠ [] := by simp
              have e := List.dropLast_concat_getLast this
              have hm2 : (m' :: t').getLast this ∈ kidsOf items (p ++ d.prog :: (m' :: t').dropLast) := by
                rw [mem_kids items hr.nonempty]
                rw [List.append_assoc, List.cons_append, e]
                exact hm
              rw [hkid] at hm2
              simp at hm2
            simp only [findAt, Option.isNone_none, if_true, Option.map_none, expected, lookup_append_single]
            rw [if_neg (by simp), hl, if_neg (by simp)]
            rfl
        · have e1 : subByName (xch ++ [.node d none []]) m = subByName xch m := by
            unfold subByName
            rw [List.find?_append]
            have : d.prog ≠ m := fun e => hm e.symm
            simp [node_data, this]
          rw [e1]
          have hview := hr.view (p ++ m :: t)
          have hexp : expected rd (items ++ [(p ++ [d.prog], d)]) (p ++ m :: t) = expected rd items (p ++ m :: t) := by
            unfold expected
            rw [lookup_append_single, if_neg (by simp [hm] : ¬ p ++ m :: t = p ++ [d.prog]), Option.or_none]
            simp only [kids_append]
            rw [if_neg (by simp : ¬ p = p ++ m :: t)]
            simp
          rw [hexp, ← hview]
          have hold := findAt_append h1 (m :: t)
          rw [hold]
          simp only [findAt]
          cases xs with
          | none =>
            have : kidsOf items p = [] := by
              by_cases hk : kidsOf items p = []
              · exact hk
              · rw [if_neg hk] at hxs; cases hxs
            rw [this] at hkids
            have : xch = [] := by simpa using hkids
            subst this
            rfl
          | some k => rfl
    · rw [h5 q hpq, hr.view q]
      unfold expected
      have hqp : p ≠ q := by rintro rfl; exact hpq (List.prefix_refl _)
      have hq2 : ¬ q = p ++ [d.prog] := by rintro rfl; exact hpq (List.prefix_append _ _)
      rw [lookup_append_single, if_neg hq2, Option.or_none]
      simp only [kids_append, if_neg hqp, List.append_nil]
  · intro it hit
    simp only [List.mem_append, List.mem_singleton] at hit
    rcases hit with hit | rfl
    · exact hr.nonempty it hit
    · simp
  · intro it hit
    simp only [List.mem_append, List.mem_singleton] at hit
    simp only [List.map_append, List.mem_append]
    rcases hit with hit | rfl
    · rcases hr.closed it hit with h | h
      · exact Or.inl h
      · exact Or.inr (Or.inl h)
    · simp only [List.dropLast_concat]
      rcases hp with h | h
      · exact Or.inl h
      · exact Or.inr (Or.inl h)
  · rw [List.map_append, List.nodup_append]
    refine ⟨hr.nodup, by simp, ?_⟩
    intro a ha b hb
    simp only [List.map_cons, List.map_nil, List.mem_singleton] at hb
    subst hb
    rintro rfl
    exact hn ha

/-! ## The loop -/

theorem splitWsGo_ne (cur s : Str) (h : cur ≠ [] ∨ ∃ c ∈ s, pyIsSpace c = false) : splitWsGo cur s ≠ [] := by
  induction s generalizing cur with
  | nil =>
    cases cur with
    | nil => simp at h
    | cons => simp [splitWsGo]
  | cons c cs ih =>
    simp only [splitWsGo]
    by_cases hc : pyIsSpace c = true
    · rw [if_pos hc]
      cases cur with
      | nil =>
        simp only [List.isEmpty_nil, if_true]
        apply ih
        right
        rcases h with h | ⟨x, hx, hs⟩
        · exact absurd rfl h
        · simp only [List.mem_cons] at hx
          rcases hx with rfl | hx
          · rw [hc] at hs; cases hs
          · exact ⟨x, hx, hs⟩
      | cons => simp
    · rw [if_neg hc]
      exact ih _ (Or.inl (by simp))

theorem checkProg_ne {v : Val} {e : List (Key × Val)} {p : List Str} (h : checkProg v = .ok (e, p)) : p ≠ [] := by
  unfold checkProg at h
  split at h
  · split at h
    · rename_i s _
      split at h
      · rename_i hv
        simp only [Except.ok.injEq, Prod.mk.injEq] at h
        rw [← h.2]
        apply splitWsGo_ne
        right
        unfold validProg at hv
        simp only [Bool.and_eq_true, Bool.not_eq_true', isBlank] at hv
        have := hv.1.1.1.1.1
        rw [List.all_eq_false] at this
        obtain ⟨c, hc, hs⟩ := this
        exact ⟨c, hc, by simpa using hs⟩
      · cases h
    · cases h
  · split at h <;> cases h
  · split at h <;> cases h
  · cases h

theorem dictToCmd_prog {e : List (Key × Val)} {n : Str} {d : CmdData} (h : dictToCmd e n = .ok d) : d.prog = n := by
  unfold dictToCmd at h
  simp only [bind, Except.bind] at h
  repeat' (split at h)
  all_goals first
    | (simp only [Except.ok.injEq] at h; rw [← h])
    | cases h

/-- Every definition is new and comes after its parent; `done` are the paths defined before. -/
inductive InOrder : List (List Str) → List (List Str × CmdData) → Prop
  | nil {done} : InOrder done []
  | cons {done p d items} : p ∉ done → (p.dropLast = [] ∨ p.dropLast ∈ done) →
      InOrder (done ++ [p]) items → InOrder done ((p, d) :: items)

theorem path_split {p : List Str} (hp : p ≠ []) : p.dropLast ++ [p.getLastD []] = p := by
  rw [List.getLastD_eq_getLast?, List.getLast?_eq_some_getLast hp]
  exact List.dropLast_concat_getLast hp

theorem go_ok {rd : CmdData} {r r' : Cmd} {items : List (List Str × CmdData)} {vs : List Val}
    (hr : Rep rd r items) (h : importGo r vs = .ok r') :
    ∃ new, ParsedAll vs new ∧ InOrder (items.map Prod.fst) new ∧ Rep rd r' (items ++ new) := by
  induction vs generalizing r items with
  | nil =>
    simp only [importGo, Except.ok.injEq] at h
    subst h
    exact ⟨[], .nil, .nil, by simpa using hr⟩
  | cons v vs ih =>
    simp only [importGo, bind, Except.bind] at h
    cases hc : checkProg v with
    | error e => rw [hc] at h; cases h
    | ok ep =>
      obtain ⟨e, p⟩ := ep
      rw [hc] at h
      simp only at h
      cases hu : updateAt r p.dropLast .ok with
      | error e => rw [hu] at h; cases h
      | ok _ =>
        rw [hu] at h
        simp only at h
        cases hd : dictToCmd e (p.getLastD []) with
        | error e => rw [hd] at h; cases h
        | ok d =>
          rw [hd] at h
          simp only at h
          cases ha : updateAt r p.dropLast (attach d) with
          | error e => rw [ha] at h; cases h
          | ok r1 =>
            rw [ha] at h
            simp only at h
            obtain ⟨h1, h2, h3⟩ := rep_attach hr ha
            rw [dictToCmd_prog hd, path_split (checkProg_ne hc)] at h1 h3
            obtain ⟨new, g1, g2, g3⟩ := ih h3 h
            refine ⟨(p, d) :: new, .cons hc hd g1, .cons h1 h2 (by simpa using g2), by simpa using g3⟩

theorem go_of {rd : CmdData} {r : Cmd} {items new : List (List Str × CmdData)} {vs : List Val}
    (hr : Rep rd r items) (hp : ParsedAll vs new) (ho : InOrder (items.map Prod.fst) new) :
    ∃ r', importGo r vs = .ok r' := by
  induction hp generalizing r items with
  | nil => exact ⟨r, rfl⟩
  | @cons v vs e p d new hc hd _ ih =>
    cases ho with
    | cons h1 h2 h3 =>
      have hpne := checkProg_ne hc
      have hv := hr.view p.dropLast
      cases hx : findAt r p.dropLast with
      | none =>
        rw [hx] at hv
        unfold expected at hv
        rcases h2 with h2 | h2
        · rw [if_pos h2] at hv; simp at hv
        · cases hl : items.lookup p.dropLast with
          | none => exact absurd h2 ((lookup_none_iff _ _).1 hl)
          | some d' =>
            rw [hl] at hv
            by_cases hq : p.dropLast = []
            · rw [if_pos hq] at hv; simp at hv
            · rw [if_neg hq] at hv; simp at hv
      | some x =>
        have hn : d.prog ∉ x.children.map (fun y => y.data.prog) := by
          rw [hx] at hv
          intro hm
          unfold expected at hv
          have hk : d.prog ∈ kidsOf items p.dropLast := by
            cases hl : (if p.dropLast = [] then some rd else items.lookup p.dropLast) with
            | none => rw [hl] at hv; simp at hv
            | some d' =>
              rw [hl] at hv
              simp only [Option.map_some, Option.some.injEq, CC.view, Prod.mk.injEq] at hv
              rw [← hv.2.2]; exact hm
          rw [mem_kids items hr.nonempty, dictToCmd_prog hd, path_split hpne] at hk
          exact h1 hk
        obtain ⟨r1, hr1⟩ := updateAt_of_find (f := attach d) hx (attach_ok.2 ⟨hn, rfl⟩)
        obtain ⟨_, _, h3'⟩ := rep_attach hr hr1
        rw [dictToCmd_prog hd, path_split hpne] at h3'
        obtain ⟨r', hr'⟩ := ih h3' (by simpa using h3)
        refine ⟨r', ?_⟩
        simp only [importGo, hc, bind, Except.bind]
        rw [updateAt_check hr1]
        simp only [hd, hr1, hr']

theorem inOrder_iff (done : List (List Str)) (items : List (List Str × CmdData)) (hd : done.Nodup) :
    InOrder done items ↔ (done ++ items.map Prod.fst).Nodup ∧
      ∀ i p d, items[i]? = some (p, d) → p.dropLast = [] ∨ p.dropLast ∈ done ∨
        ∃ (j : Nat) (d' : CmdData), j < i ∧ items[j]? = some (p.dropLast, d') := by
  induction items generalizing done with
  | nil => simp [hd, InOrder.nil]
  | cons it items ih =>
    obtain ⟨p, d⟩ := it
    constructor
    · intro h
      cases h with
      | cons h1 h2 h3 =>
        have hd' : (done ++ [p]).Nodup := by
          rw [List.nodup_append]
          refine ⟨hd, by simp, ?_⟩
          intro a ha b hb
          simp only [List.mem_singleton] at hb
          subst hb; rintro rfl; exact h1 ha
        obtain ⟨g1, g2⟩ := (ih (done ++ [p]) hd').1 h3
        refine ⟨by simpa using g1, ?_⟩
        intro i q e hi
        cases i with
        | zero =>
          simp only [List.getElem?_cons_zero, Option.some.injEq, Prod.mk.injEq] at hi
          rw [← hi.1]
          rcases h2 with h | h
          · exact Or.inl h
          · exact Or.inr (Or.inl h)
        | succ i =>
          simp only [List.getElem?_cons_succ] at hi
          rcases g2 i q e hi with h | h | ⟨j, d', hj, hjd⟩
          · exact Or.inl h
          · simp only [List.mem_append, List.mem_singleton] at h
            rcases h with h | h
            · exact Or.inr (Or.inl h)
            · exact Or.inr (Or.inr ⟨0, d, by omega, by rw [h]; rfl⟩)
          · exact Or.inr (Or.inr ⟨j + 1, d', by omega, by simpa using hjd⟩)
    · rintro ⟨g1, g2⟩
      have hnd : (done ++ [p] ++ items.map Prod.fst).Nodup := by simpa using g1
      have hd' : (done ++ [p]).Nodup := (List.nodup_append.1 hnd).1
      refine .cons ?_ ?_ ((ih (done ++ [p]) hd').2 ⟨hnd, ?_⟩)
      · intro hm
        exact (List.nodup_append.1 hd').2.2 p hm p (by simp) rfl
      · rcases g2 0 p d rfl with h | h | ⟨j, _, hj, _⟩
        · exact Or.inl h
        · exact Or.inr h
        · omega
      · intro i q e hi
        rcases g2 (i + 1) q e (by simpa using hi) with h | h | ⟨j, d', hj, hjd⟩
        · exact Or.inl h
        · exact Or.inr (Or.inl (by simp [h]))
        · cases j with
          | zero =>
            simp only [List.getElem?_cons_zero, Option.some.injEq, Prod.mk.injEq] at hjd
            exact Or.inr (Or.inl (by simp [hjd.1]))
          | succ j => exact Or.inr (Or.inr ⟨j, d', by omega, by simpa using hjd⟩)

theorem rep_root : Rep { prog := S "root" } importRoot [] := by
  refine ⟨?_, by simp, by simp, by simp⟩
  intro q
  cases q with
  | nil => rfl
  | cons n ns => rfl

theorem parsed_ne {vs : List Val} {items : List (List Str × CmdData)} (h : ParsedAll vs items) :
    ∀ it ∈ items, it.1 ≠ [] := by
  induction h with
  | nil => simp
  | cons hc _ _ ih =>
    intro it hit
    simp only [List.mem_cons] at hit
    rcases hit with rfl | hit
    · exact checkProg_ne hc
    · exact ih it hit

theorem parsed_inj {vs : List Val} {a b : List (List Str × CmdData)} (ha : ParsedAll vs a)
    (hb : ParsedAll vs b) : a = b := by
  induction ha generalizing b with
  | nil => cases hb; rfl
  | cons hc hd _ ih =>
    cases hb with
    | cons hc' hd' h' =>
      rw [hc] at hc'
      simp only [Except.ok.injEq, Prod.mk.injEq] at hc'
      obtain ⟨rfl, rfl⟩ := hc'
      rw [hd] at hd'
      simp only [Except.ok.injEq] at hd'
      subst hd'
      rw [ih h']

theorem dropLast_nil_iff {p : List Str} (hp : p ≠ []) : p.dropLast = [] ↔ p.length = 1 := by
  rw [← List.length_eq_zero_iff, List.length_dropLast]
  have : p.length ≠ 0 := by simpa using hp
  omega

/-- `InOrder` from nothing is the order part of consistency. -/
theorem inOrder_nil_iff {items : List (List Str × CmdData)} (hne : ∀ it ∈ items, it.1 ≠ []) :
    InOrder [] items ↔ (items.map Prod.fst).Nodup ∧
      ∀ i p d, items[i]? = some (p, d) → 2 ≤ p.length →
        ∃ (j : Nat) (d' : CmdData), j < i ∧ items[j]? = some (p.dropLast, d') := by
  rw [inOrder_iff [] items (by simp)]
  simp only [List.nil_append, List.not_mem_nil, false_or]
  constructor
  · rintro ⟨h1, h2⟩
    refine ⟨h1, fun i p d hi hl => ?_⟩
    rcases h2 i p d hi with h | h
    · have := (dropLast_nil_iff (hne _ (List.mem_of_getElem? hi))).1 h
      simp only at this; omega
    · exact h
  · rintro ⟨h1, h2⟩
    refine ⟨h1, fun i p d hi => ?_⟩
    have hne' : p ≠ [] := hne _ (List.mem_of_getElem? hi)
    by_cases hl : 2 ≤ p.length
    · exact Or.inr (h2 i p d hi hl)
    · left
      rw [dropLast_nil_iff hne']
      have : p.length ≠ 0 := by simpa using hne'
      omega

/-- The children of the root are the main commands. -/
theorem rep_main {rd : CmdData} {r : Cmd} {items : List (List Str × CmdData)} (hr : Rep rd r items) :
    r.data = rd ∧ r.sub = (if kidsOf items [] = [] then none else some (highestNumber rd.positionals + 1)) ∧
    r.children.map (fun y => y.data.prog) = kidsOf items [] := by
  have := hr.view []
  cases r with
  | node d s ch =>
    simp only [findAt, Option.map_some, expected, if_true, Option.some.injEq, CC.view, Prod.mk.injEq] at this
    exact this

theorem kids_nodup {items : List (List Str × CmdData)} (hne : ∀ it ∈ items, it.1 ≠ [])
    (hn : (items.map Prod.fst).Nodup) (p : List Str) : (kidsOf items p).Nodup := by
  induction items using snoc_induction with
  | h0 => simp [kidsOf]
  | h1 items it ih =>
    have hit := hne it (by simp)
    have e : it = (it.1.dropLast ++ [it.1.getLastD []], it.2) := by rw [path_split hit]
    rw [e, kids_append]
    rw [List.map_append, List.nodup_append] at hn
    have ih' := ih (fun x hx => hne x (by simp [hx])) hn.1
    by_cases hp : it.1.dropLast = p
    · rw [if_pos hp, List.nodup_append]
      refine ⟨ih', by simp, ?_⟩
      intro a ha b hb
      simp only [List.mem_singleton] at hb
      rintro rfl
      rw [mem_kids items (fun x hx => hne x (by simp [hx]))] at ha
      rw [hb, ← hp, path_split hit] at ha
      exact hn.2.2 _ ha _ (by simp) rfl
    · rw [if_neg hp]; simpa using ih'

theorem importEnd_ok {r c : Cmd} : importEnd r = .ok c ↔ r.sub.isSome = true ∧ r.children = [c] := by
  cases r with
  | node d s ch =>
    cases s with
    | none => simp [importEnd, Cmd.sub]
    | some k =>
      match ch with
      | [] => simp [importEnd, Cmd.sub, Cmd.children]
      | [c0] => simp [importEnd, Cmd.sub, Cmd.children]
      | a :: b :: t => simp [importEnd, Cmd.sub, Cmd.children]

theorem main_iff {items : List (List Str × CmdData)} (hne : ∀ it ∈ items, it.1 ≠ [])
    (hn : (items.map Prod.fst).Nodup) (n : Str) :
    (∀ p, (p ∈ items.map Prod.fst ∧ p.length = 1) ↔ p = [n]) ↔ kidsOf items [] = [n] := by
  have hk := mem_kids items hne []
  simp only [List.nil_append] at hk
  constructor
  · intro h
    have h1 : n ∈ kidsOf items [] := (hk n).2 ((h [n]).2 rfl).1
    have h2 : ∀ m ∈ kidsOf items [], m = n := by
      intro m hm
      have := (h [m]).1 ⟨(hk m).1 hm, rfl⟩
      simpa using this
    have h3 := kids_nodup hne hn []
    match hl : kidsOf items [], h1, h2, h3 with
    | [m], _, h2, _ => rw [h2 m (by simp)]
    | a :: b :: t, _, h2, h3 =>
      exfalso
      have e1 := h2 a (by simp)
      have e2 := h2 b (by simp)
      rw [List.nodup_cons] at h3
      apply h3.1
      rw [e1, e2]; simp
  · intro h p
    constructor
    · rintro ⟨hp, hl⟩
      match p, hl with
      | [m], _ =>
        have := (hk m).2 hp
        rw [h] at this
        simpa using this
    · rintro rfl
      exact ⟨(hk n).1 (by rw [h]; simp), rfl⟩

theorem import_rep {docs : List Val} {c : Cmd} (h : dictsToCmd docs = .ok c) :
    ∃ items r, ParsedAll (processed docs) items ∧ Consistent items ∧
      Rep { prog := S "root" } r items ∧ r.sub.isSome = true ∧ r.children = [c] := by
  unfold dictsToCmd at h
  simp only [bind, Except.bind] at h
  cases hg : importGo importRoot ((replaceDefinesInDocuments docs).map fixCommandline) with
  | error e => rw [hg] at h; cases h
  | ok r =>
    rw [hg] at h
    simp only at h
    rw [importEnd_ok] at h
    obtain ⟨items, h1, h2, h3⟩ := go_ok rep_root hg
    simp only [List.nil_append] at h3
    have hne := parsed_ne h1
    obtain ⟨g1, g2⟩ := (inOrder_nil_iff hne).1 (by simpa using h2)
    refine ⟨items, r, h1, ⟨g1, g2, c.data.prog, ?_⟩, h3, h.1, h.2⟩
    rw [main_iff hne g1, ← (rep_main h3).2.2, h.2]
    rfl

/-- **C27**: a list of documents is accepted if and only if every document can be read, no command
is defined twice, every subcommand is defined after its parent, and there is exactly one main
command. -/
theorem C27_accepted_iff (docs : List Val) :
    (∃ c, dictsToCmd docs = .ok c) ↔ ∃ items, ParsedAll (processed docs) items ∧ Consistent items := by
  constructor
  · rintro ⟨c, h⟩
    obtain ⟨items, r, h1, h2, _⟩ := import_rep h
    exact ⟨items, h1, h2⟩
  · rintro ⟨items, h1, h2⟩
    have hne := parsed_ne h1
    obtain ⟨r, hr⟩ := go_of rep_root h1 (by simpa using (inOrder_nil_iff hne).2 ⟨h2.once, h2.parent⟩)
    obtain ⟨items', h1', _, hrep⟩ := go_ok rep_root hr
    have e := parsed_inj h1 h1'
    subst e
    simp only [List.nil_append] at hrep
    obtain ⟨n, hn⟩ := h2.main
    rw [main_iff hne h2.once] at hn
    obtain ⟨_, m2, m3⟩ := rep_main hrep
    rw [hn] at m2 m3
    match hc : r.children, m3 with
    | [c], _ =>
      refine ⟨c, ?_⟩
      unfold dictsToCmd
      unfold processed at hr
      simp only [bind, Except.bind, hr]
      rw [importEnd_ok]
      exact ⟨by rw [m2]; rfl, hc⟩

/-- Everything found by name is observed. -/
def Watched (c : Cmd) : Prop := ∀ q x, findAt c q = some x →
  (x.children.map (fun y => y.data.prog)).Nodup ∧ (x.sub = none → x.children = [])

theorem subByName_get {ch : List Cmd} (hn : (ch.map (fun y => y.data.prog)).Nodup) {i : Nat} {c : Cmd}
    (hi : ch[i]? = some c) : subByName ch c.data.prog = some c :=
  C22_lookup ch hn c (List.mem_of_getElem? hi)

theorem namesAt_cons (c : Cmd) (a : List Nat) (p : List Str) (h : c.namesAt a = some p) :
    ∃ t, p = c.data.prog :: t := by
  have := namesAt_head c a p h
  cases p with
  | nil => simp at this
  | cons x t => simp only [List.head?_cons, Option.some.injEq] at this; exact ⟨t, by rw [this]⟩

theorem findAt_at (c : Cmd) (hw : Watched c) (ns : List Str) (x : Cmd) :
    findAt c ns = some x ↔ ∃ a, c.at a = some x ∧ c.namesAt a = some (c.data.prog :: ns) := by
  induction ns generalizing c with
  | nil =>
    constructor
    · intro h
      cases c
      simp only [findAt, Option.some.injEq] at h
      subst h
      exact ⟨[], rfl, rfl⟩
    · rintro ⟨a, h1, h2⟩
      cases a with
      | nil => cases c; exact h1
      | cons i is =>
        obtain ⟨ns, e, hl⟩ := namesAt_isSome c (i :: is) x h1
        rw [e] at h2
        simp only [Option.some.injEq] at h2
        rw [h2] at hl
        simp at hl
  | cons n ns ih =>
    cases c with
    | node d s ch =>
      obtain ⟨hnd, hsub⟩ := hw [] _ rfl
      simp only [node_children, node_sub] at hnd hsub
      have hwc : ∀ (i : Nat) (ci : Cmd), ch[i]? = some ci → Watched ci ∧ s.isSome = true := by
        intro i ci hi
        have hs : s.isSome = true := by
          cases s with
          | none => rw [hsub rfl] at hi; simp at hi
          | some k => rfl
        refine ⟨?_, hs⟩
        intro q y hq
        apply hw (ci.data.prog :: q) y
        obtain ⟨k, rfl⟩ := Option.isSome_iff_exists.1 hs
        simp [findAt, subByName_get hnd hi, hq]
      constructor
      · intro h
        simp only [findAt] at h
        split at h
        · cases h
        · split at h
          · cases h
          · rename_i c0 hc0
            unfold subByName at hc0
            have hm := List.mem_of_find?_eq_some hc0
            have hp := List.find?_some hc0
            simp only [decide_eq_true_eq] at hp
            obtain ⟨i, hi⟩ := List.getElem?_of_mem hm
            obtain ⟨a, h1, h2⟩ := (ih c0 (hwc i c0 hi).1).1 h
            refine ⟨i :: a, by simp [Cmd.at, hi, h1], ?_⟩
            simp only [Cmd.namesAt, hi, h2, Option.map_some, node_data, hp]
      · rintro ⟨a, h1, h2⟩
        cases a with
        | nil => simp [Cmd.namesAt] at h2
        | cons i is =>
          simp only [Cmd.at] at h1
          simp only [Cmd.namesAt] at h2
          cases hi : ch[i]? with
          | none => rw [hi] at h1; cases h1
          | some ci =>
            rw [hi] at h1 h2
            simp only at h1 h2
            cases hnames : ci.namesAt is with
            | none => rw [hnames] at h2; cases h2
            | some l =>
              rw [hnames] at h2
              simp only [Option.map_some, Option.some.injEq, node_data, List.cons.injEq, true_and] at h2
              obtain ⟨t, ht⟩ := namesAt_cons ci is l hnames
              rw [h2] at ht
              simp only [List.cons.injEq] at ht
              obtain ⟨hwi, hs⟩ := hwc i ci hi
              obtain ⟨k, rfl⟩ := Option.isSome_iff_exists.1 hs
              have := (ih ci hwi).2 ⟨is, h1, by rw [hnames, h2, ht.1]⟩
              simp only [findAt, Option.isNone_some, Bool.false_eq_true, if_false]
              rw [ht.1, subByName_get hnd hi]
              exact this

/-- **C27**: the tree of an accepted list of documents consists of exactly the defined commands: the
command with path `p` has the attributes given for `p`, its subcommands are those defined with `p`
as the parent, in the order of their definition, and its subcommand slot comes after its
positionals. -/
theorem C27_tree (docs : List Val) (c : Cmd) (h : dictsToCmd docs = .ok c)
    (items : List (List Str × CmdData)) (hi : ParsedAll (processed docs) items) :
    (∀ p d, (p, d) ∈ items ↔ ∃ a x, c.at a = some x ∧ c.namesAt a = some p ∧ x.data = d) ∧
    (∀ a x p, c.at a = some x → c.namesAt a = some p →
      x.children.map (fun y => y.data.prog) = kidsOf items p ∧
      (x.sub = none ↔ kidsOf items p = []) ∧ WellNumbered x) ∧
    UniqueNames c := by
  obtain ⟨items', r, h1, h2, hrep, hs, hch⟩ := import_rep h
  have e := parsed_inj hi h1
  subst e
  have hne := parsed_ne hi
  obtain ⟨k, hk⟩ := Option.isSome_iff_exists.1 hs
  have hfind : ∀ n ns, findAt r (n :: ns) = if c.data.prog = n then findAt c ns else none := by
    intro n ns
    cases r with
    | node d s ch =>
      simp only [node_children, node_sub] at hch hk
      subst hch hk
      simp only [findAt, Option.isNone_some, Bool.false_eq_true, if_false, subByName, List.find?_cons]
      by_cases hp : c.data.prog = n
      · simp [hp]
      · simp [hp]
  have hexp : ∀ n ns x, findAt r (n :: ns) = some x → ∃ d, (n :: ns, d) ∈ items ∧ x.data = d ∧
      x.children.map (fun y => y.data.prog) = kidsOf items (n :: ns) ∧
      x.sub = (if kidsOf items (n :: ns) = [] then none else some (highestNumber d.positionals + 1)) := by
    intro n ns x hx
    have hv := hrep.view (n :: ns)
    rw [hx] at hv
    unfold expected at hv
    rw [if_neg (by simp)] at hv
    cases hl : items.lookup (n :: ns) with
    | none => rw [hl] at hv; simp at hv
    | some d =>
      rw [hl] at hv
      simp only [Option.map_some, Option.some.injEq, CC.view, Prod.mk.injEq] at hv
      exact ⟨d, (lookup_mem items h2.once _ _).1 hl, hv.1, hv.2.2, hv.2.1⟩
  have hw : Watched c := by
    intro q x hq
    obtain ⟨d, _, _, h3, h4⟩ := hexp c.data.prog q x (by rw [hfind, if_pos rfl]; exact hq)
    refine ⟨by rw [h3]; exact kids_nodup hne h2.once _, ?_⟩
    intro hs
    rw [hs] at h4
    split at h4
    · rename_i hk0
      rw [hk0] at h3
      simpa using h3
    · cases h4
  have hat : ∀ a x p, c.at a = some x → c.namesAt a = some p → ∃ ns, p = c.data.prog :: ns ∧
      findAt r p = some x := by
    intro a x p h1 h2
    obtain ⟨t, ht⟩ := namesAt_cons c a p h2
    refine ⟨t, ht, ?_⟩
    rw [ht, hfind, if_pos rfl]
    exact (findAt_at c hw t x).2 ⟨a, h1, by rw [h2, ht]⟩
  refine ⟨?_, ?_, ?_⟩
  · intro p d
    constructor
    · intro hm
      match p, hne _ hm with
      | n :: ns, _ =>
        have hl := (lookup_mem items h2.once _ _).2 hm
        have hv := hrep.view (n :: ns)
        unfold expected at hv
        rw [if_neg (by simp), hl] at hv
        cases hx : findAt r (n :: ns) with
        | none => rw [hx] at hv; simp at hv
        | some x =>
          rw [hx] at hv
          simp only [Option.map_some, Option.some.injEq, CC.view, Prod.mk.injEq] at hv
          rw [hfind] at hx
          split at hx
          · rename_i hp
            obtain ⟨a, g1, g2⟩ := (findAt_at c hw ns x).1 hx
            exact ⟨a, x, g1, by rw [g2, hp], hv.1⟩
          · cases hx
    · rintro ⟨a, x, g1, g2, rfl⟩
      obtain ⟨ns, rfl, hf⟩ := hat a x p g1 g2
      obtain ⟨d, hm, hd, _⟩ := hexp _ _ _ hf
      rw [hd]; exact hm
  · intro a x p g1 g2
    obtain ⟨ns, rfl, hf⟩ := hat a x p g1 g2
    obtain ⟨d, hm, hd, h3, h4⟩ := hexp _ _ _ hf
    refine ⟨h3, ?_, ?_⟩
    · rw [h4]
      split
      · rename_i hk0; simp [hk0]
      · rename_i hk0; simp [hk0]
    · intro n hn
      rw [h4] at hn
      split at hn
      · cases hn
      · simp only [Option.some.injEq] at hn
        rw [← hn, highest_eq, hd]
  · intro a x g1
    obtain ⟨p, g2, _⟩ := namesAt_isSome c a x g1
    obtain ⟨ns, rfl, hf⟩ := hat a x p g1 g2
    obtain ⟨d, hm, hd, h3, h4⟩ := hexp _ _ _ hf
    rw [h3]
    exact kids_nodup hne h2.once _

/-- A document defining only a name. -/
def nameDoc (p : Str) : Val := .dict [(.str (S "prog"), .str p)]

/-- Accepted: parent first. -/
theorem C27_example : ∃ c, dictsToCmd [nameDoc (S "a"), nameDoc (S "a b")] = .ok c ∧
    c.children.map (fun y => y.data.prog) = [S "b"] :=
  ⟨.node { prog := S "a" } (some 1) [.node { prog := S "b" } none []], rfl, rfl⟩

/-- Rejected: nothing, two main commands, a command defined twice, a missing parent, a parent that
comes after its subcommand. -/
theorem C27_rejected : dictsToCmd [] = .error .crazyError ∧
    dictsToCmd [nameDoc (S "a"), nameDoc (S "b")] = .error .crazyError ∧
    dictsToCmd [nameDoc (S "a"), nameDoc (S "a")] = .error .crazyError ∧
    dictsToCmd [nameDoc (S "a"), nameDoc (S "a b c")] = .error .crazyError ∧
    dictsToCmd [nameDoc (S "a b"), nameDoc (S "a")] = .error .crazyError :=
  ⟨rfl, rfl, rfl, rfl, rfl⟩

end CC
