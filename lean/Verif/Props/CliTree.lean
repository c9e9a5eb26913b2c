import Verif.Props.CliOptions
import Verif.Model.Generation
/-!
# C19, C20, C21, C22: command trees
-/

namespace CC

/-! ## C19 -/

/-- Shift the first component of addresses. -/
def shiftAddrs (n : Nat) (as : List (List Nat)) : List (List Nat) := as.map (n :: ·)

mutual
/-- The addresses in the order of traversal. -/
def Cmd.addrs : Cmd → List (List Nat)
  | .node _ _ ch => [] :: Cmd.addrsList 0 ch
/-- The addresses below a list of children whose first has position `n`. -/
def Cmd.addrsList (n : Nat) : List Cmd → List (List Nat)
  | [] => []
  | c :: cs => shiftAddrs n c.addrs ++ Cmd.addrsList (n + 1) cs
end

theorem addrsList_spec (ch : List Cmd)
    (ih : ∀ c ∈ ch, c.addrs.Pairwise addrLt ∧ (∀ a, a ∈ c.addrs ↔ (c.at a).isSome = true) ∧
      c.all.map some = c.addrs.map c.at) (full pre : List Cmd) (hf : full = pre ++ ch) (d : CmdData)
    (s : Option Nat) :
    (Cmd.addrsList pre.length ch).Pairwise addrLt ∧
    (∀ a, a ∈ Cmd.addrsList pre.length ch ↔
      ∃ i is, a = i :: is ∧ pre.length ≤ i ∧ ((Cmd.node d s full).at a).isSome = true) ∧
    (Cmd.allList ch).map some = (Cmd.addrsList pre.length ch).map (Cmd.node d s full).at := by
  induction ch generalizing pre with
  | nil =>
    refine ⟨by simp [Cmd.addrsList], ?_, by simp [Cmd.addrsList, Cmd.allList]⟩
    intro a
    simp only [Cmd.addrsList, List.not_mem_nil, false_iff]
    rintro ⟨i, is, rfl, hi, h⟩
    have : full[i]? = none := by
      rw [List.getElem?_eq_none_iff, hf]; simpa using hi
    simp [Cmd.at, this] at h
  | cons c cs ih2 =>
    obtain ⟨h1, h2, h3⟩ := ih c (by simp)
    have hlen : (pre ++ [c]).length = pre.length + 1 := by simp
    obtain ⟨g1, g2, g3⟩ := ih2 (fun x hx => ih x (by simp [hx])) (pre ++ [c]) (by simp [hf])
    rw [hlen] at g1 g2 g3
    have hget : full[pre.length]? = some c := by rw [hf]; simp
    have hat : ∀ is, (Cmd.node d s full).at (pre.length :: is) = c.at is := by
      intro is; simp [Cmd.at, hget]
    refine ⟨?_, ?_, ?_⟩
    · simp only [Cmd.addrsList]
      rw [List.pairwise_append]
      refine ⟨?_, g1, ?_⟩
      · unfold shiftAddrs
        rw [List.pairwise_map]
        exact h1.imp (fun h => Or.inr ⟨rfl, h⟩)
      · intro a ha b hb
        unfold shiftAddrs at ha
        rw [List.mem_map] at ha
        obtain ⟨is, _, rfl⟩ := ha
        obtain ⟨j, js, rfl, hj, _⟩ := (g2 b).1 hb
        exact Or.inl (by omega)
    · intro a
      simp only [Cmd.addrsList, List.mem_append, shiftAddrs, List.mem_map, g2]
      constructor
      · rintro (⟨is, his, rfl⟩ | ⟨i, is, rfl, hi, h⟩)
        · exact ⟨_, is, rfl, Nat.le_refl _, by rw [hat]; exact (h2 is).1 his⟩
        · exact ⟨i, is, rfl, by omega, h⟩
      · rintro ⟨i, is, rfl, hi, h⟩
        by_cases hi' : i = pre.length
        · subst hi'
          rw [hat] at h
          exact Or.inl ⟨is, (h2 is).2 h, rfl⟩
        · exact Or.inr ⟨i, is, rfl, by omega, h⟩
    · simp only [Cmd.allList, Cmd.addrsList, List.map_append, h3, g3, shiftAddrs, List.map_map]
      congr 1
      apply List.map_congr_left
      intro is _
      simp [hat]

theorem addrs_spec (c : Cmd) : c.addrs.Pairwise addrLt ∧ (∀ a, a ∈ c.addrs ↔ (c.at a).isSome = true) ∧
    c.all.map some = c.addrs.map c.at := by
  induction c using Cmd.ind with
  | h d s ch ih =>
    obtain ⟨h1, h2, h3⟩ := addrsList_spec ch ih ch [] rfl d s
    simp only [List.length_nil] at h1 h2 h3
    refine ⟨?_, ?_, ?_⟩
    · simp only [Cmd.addrs, List.pairwise_cons]
      refine ⟨?_, h1⟩
      intro a ha
      obtain ⟨i, is, rfl, _⟩ := (h2 a).1 ha
      trivial
    · intro a
      simp only [Cmd.addrs, List.mem_cons, h2]
      constructor
      · rintro (rfl | ⟨_, _, _, _, h⟩)
        · simp [Cmd.at]
        · exact h
      · intro h
        cases a with
        | nil => exact Or.inl rfl
        | cons i is => exact Or.inr ⟨i, is, rfl, Nat.zero_le _, h⟩
    · simp only [Cmd.all, Cmd.addrs, List.map_cons, h3]
      simp [Cmd.at]

/-- **C19**: the traversal goes through the addresses of all commands, each once, in strictly
increasing order (parents before children, siblings in order). -/
theorem C19_traversal (c : Cmd) : ∃ as : List (List Nat),
    as.Pairwise addrLt ∧ (∀ a, a ∈ as ↔ (c.at a).isSome = true) ∧ c.all.map some = as.map c.at :=
  ⟨c.addrs, addrs_spec c⟩

theorem addrLt_irrefl (a : List Nat) : ¬ addrLt a a := by
  induction a with
  | nil => exact fun h => h
  | cons i is ih => rintro (h | ⟨_, h⟩); omega; exact ih h

/-- The order used in C19 has no repetitions and puts a command before everything below it. -/
theorem C19_order (a b : List Nat) : ¬ addrLt a a ∧ (b ≠ [] → addrLt a (a ++ b)) := by
  refine ⟨addrLt_irrefl a, fun hb => ?_⟩
  induction a with
  | nil => cases b with
    | nil => exact absurd rfl hb
    | cons => trivial
  | cons i is ih => exact Or.inr ⟨rfl, ih⟩

theorem namesAt_isSome (c : Cmd) (a : List Nat) (x : Cmd) (h : c.at a = some x) :
    ∃ ns, c.namesAt a = some ns ∧ ns.length = a.length + 1 := by
  induction a generalizing c with
  | nil => exact ⟨[c.data.prog], by cases c; rfl, rfl⟩
  | cons i is ih =>
    cases c with
    | node d s ch =>
      simp only [Cmd.at] at h
      cases hg : ch[i]? with
      | none => rw [hg] at h; cases h
      | some c' =>
        rw [hg] at h
        obtain ⟨ns, h1, h2⟩ := ih c' h
        exact ⟨d.prog :: ns, by simp [Cmd.namesAt, hg, h1], by simp [h2]⟩

theorem namesAt_head (c : Cmd) (a : List Nat) (ns : List Str) (h : c.namesAt a = some ns) :
    ns.head? = some c.data.prog := by
  cases c with
  | node d s ch =>
    cases a with
    | nil => simp [Cmd.namesAt] at h; subst h; rfl
    | cons i is =>
      simp only [Cmd.namesAt] at h
      cases hg : ch[i]? with
      | none => rw [hg] at h; cases h
      | some c' =>
        rw [hg] at h
        simp only [Option.map_eq_some_iff] at h
        obtain ⟨ns', _, rfl⟩ := h
        rfl

/-- **C19**: with unique sibling names, different commands have different command paths. -/
theorem C19_paths_distinct (c : Cmd) (hu : UniqueNames c) (a b : List Nat) (x y : Cmd)
    (ha : c.at a = some x) (hb : c.at b = some y) (hn : c.namesAt a = c.namesAt b) : a = b := by
  induction a generalizing c b with
  | nil =>
    obtain ⟨ns, h1, h2⟩ := namesAt_isSome c [] x ha
    obtain ⟨ms, h3, h4⟩ := namesAt_isSome c b y hb
    rw [h1, h3, Option.some.injEq] at hn
    subst hn
    rw [h2] at h4
    cases b with
    | nil => rfl
    | cons => simp at h4
  | cons i is ih =>
    cases b with
    | nil =>
      obtain ⟨ns, h1, h2⟩ := namesAt_isSome c (i :: is) x ha
      obtain ⟨ms, h3, h4⟩ := namesAt_isSome c [] y hb
      rw [h1, h3, Option.some.injEq] at hn
      subst hn
      rw [h2] at h4
      simp at h4
    | cons j js =>
      cases c with
      | node d s ch =>
        simp only [Cmd.at] at ha hb
        simp only [Cmd.namesAt] at hn
        cases hi : ch[i]? with
        | none => rw [hi] at ha; cases ha
        | some ci =>
          cases hj : ch[j]? with
          | none => rw [hj] at hb; cases hb
          | some cj =>
            rw [hi] at ha; rw [hj] at hb; rw [hi, hj] at hn
            simp only at ha hb hn
            obtain ⟨ns, n1, _⟩ := namesAt_isSome ci is x ha
            obtain ⟨ms, m1, _⟩ := namesAt_isSome cj js y hb
            rw [n1, m1] at hn
            simp only [Option.map_some, Option.some.injEq, List.cons.injEq, true_and] at hn
            subst hn
            have p1 := namesAt_head ci is ns n1
            have p2 := namesAt_head cj js ns m1
            rw [p1] at p2
            have p3 : ci.data.prog = cj.data.prog := by simpa using p2
            have hnd := hu [] (.node d s ch) rfl
            have hij : i = j := by
              have e1 : (ch.map (fun y => y.data.prog))[i]? = some ci.data.prog := by simp [hi]
              have e2 : (ch.map (fun y => y.data.prog))[j]? = some ci.data.prog := by simp [hj, p3]
              have l1 : i < (ch.map (fun y => y.data.prog)).length := by
                rw [List.length_map]; exact (List.getElem?_eq_some_iff.1 hi).1
              exact (List.getElem?_inj l1 hnd).1 (e1.trans e2.symm)
            subst hij
            rw [hi] at hj
            cases hj
            have := ih ci (fun a x h => hu (i :: a) x (by simp [Cmd.at, hi, h])) js ha hb
              (by rw [n1, m1])
            rw [this]

theorem joinWith_inj (ns ms : List Str) (h1 : ns ≠ []) (h2 : ms ≠ []) (hn : ∀ s ∈ ns, ' ' ∉ s)
    (hm : ∀ s ∈ ms, ' ' ∉ s) (h : joinWith [' '] ns = joinWith [' '] ms) : ns = ms := by
  have := congrArg (splitOn ' ') h
  rwa [splitOn_join _ _ h1 hn, splitOn_join _ _ h2 hm] at this

/-- **C19**: also the command paths written as strings differ, if the names contain no blank. -/
theorem C19_path_strings (c : Cmd) (hu : UniqueNames c) (a b : List Nat) (x y : Cmd)
    (ha : c.at a = some x) (hb : c.at b = some y) (ns ms : List Str) (hns : c.namesAt a = some ns)
    (hms : c.namesAt b = some ms) (h1 : ∀ s ∈ ns, ' ' ∉ s) (h2 : ∀ s ∈ ms, ' ' ∉ s)
    (h : joinWith [' '] ns = joinWith [' '] ms) : a = b := by
  have e1 : ns ≠ [] := by
    obtain ⟨ns', e, l⟩ := namesAt_isSome c a x ha
    rw [hns] at e; cases e; rintro rfl; simp at l
  have e2 : ms ≠ [] := by
    obtain ⟨ns', e, l⟩ := namesAt_isSome c b y hb
    rw [hms] at e; cases e; rintro rfl; simp at l
  apply C19_paths_distinct c hu a b x y ha hb
  rw [hns, hms, joinWith_inj ns ms e1 e2 h1 h2 h]

theorem at_append (root : Cmd) (a : List Nat) (i : Nat) (c : Cmd) (h : root.at a = some c) :
    root.at (a ++ [i]) = c.children[i]? := by
  induction a generalizing root with
  | nil =>
    simp only [Cmd.at, Option.some.injEq] at h
    subst h
    cases root with
    | node d s ch =>
      simp only [List.nil_append, Cmd.at, Cmd.children]
      cases ch[i]? <;> simp [Cmd.at]
  | cons j js ih =>
    cases root with
    | node d s ch =>
      simp only [Cmd.at, List.cons_append] at h ⊢
      cases hj : ch[j]? with
      | none => rw [hj] at h; cases h
      | some cj => rw [hj] at h; exact ih cj h

theorem namesAt_append (root : Cmd) (a : List Nat) (i : Nat) (c d : Cmd) (ns : List Str)
    (h : root.at a = some c) (hd : c.children[i]? = some d) (hn : root.namesAt a = some ns) :
    root.namesAt (a ++ [i]) = some (ns ++ [d.data.prog]) := by
  induction a generalizing root ns with
  | nil =>
    simp only [Cmd.at, Option.some.injEq] at h
    subst h
    cases root with
    | node dd s ch =>
      simp only [Cmd.children] at hd
      simp only [Cmd.namesAt, Option.some.injEq, Cmd.data] at hn
      subst hn
      simp only [List.nil_append, Cmd.namesAt, hd]
      cases d; simp [Cmd.namesAt]
  | cons j js ih =>
    cases root with
    | node dd s ch =>
      simp only [Cmd.at, Cmd.namesAt, List.cons_append] at h hn ⊢
      cases hj : ch[j]? with
      | none => rw [hj] at h; cases h
      | some cj =>
        rw [hj] at h hn
        simp only [Option.map_eq_some_iff] at hn ⊢
        obtain ⟨ns', e, rfl⟩ := hn
        exact ⟨_, ih cj ns' h e, by simp⟩

/-- **C19**: addresses are exactly the places in the tree, and the names along the address are those
of the ancestors and the command; so `get_command_path` is the joined list of names. -/
theorem C19_places (root : Cmd) : (∀ parents c, At root parents c →
      ∃ a, root.at a = some c ∧ root.namesAt a = some ((parents ++ [c]).map (fun x => x.data.prog))) ∧
    (∀ a c, root.at a = some c → ∃ parents, At root parents c ∧
      root.namesAt a = some ((parents ++ [c]).map (fun x => x.data.prog))) := by
  constructor
  · intro parents c h
    induction h with
    | root => exact ⟨[], by cases root; exact ⟨rfl, rfl⟩⟩
    | child h hd ih =>
      rename_i ps c d
      obtain ⟨a, h1, h2⟩ := ih
      obtain ⟨i, hi⟩ := List.mem_iff_getElem?.1 hd
      refine ⟨a ++ [i], by rw [at_append _ _ _ _ h1, hi], ?_⟩
      rw [namesAt_append root a i c d _ h1 hi h2]
      simp
  · intro a
    induction a using snoc_induction with
    | h0 =>
      intro c h
      simp only [Cmd.at, Option.some.injEq] at h
      subst h
      exact ⟨[], At.root, by cases root; rfl⟩
    | h1 l i ih =>
      intro c h
      have hl : ∃ p, root.at l = some p := by
        cases hp : root.at l with
        | some p => exact ⟨p, rfl⟩
        | none =>
          exfalso
          have : ∀ (r : Cmd) (l : List Nat), r.at l = none → r.at (l ++ [i]) = none := by
            intro r l
            induction l generalizing r with
            | nil => intro h; simp [Cmd.at] at h
            | cons j js ih =>
              intro h
              cases r with
              | node d s ch =>
                simp only [Cmd.at, List.cons_append] at h ⊢
                cases hj : ch[j]? with
                | none => rfl
                | some cj => rw [hj] at h; exact ih cj h
          rw [this root l hp] at h; cases h
      obtain ⟨p, hp⟩ := hl
      obtain ⟨parents, h1, h2⟩ := ih p hp
      rw [at_append _ _ _ _ hp] at h
      refine ⟨parents ++ [p], At.child h1 (List.mem_iff_getElem?.2 ⟨i, h⟩), ?_⟩
      rw [namesAt_append root l i p c _ hp h h2]
      simp

/-! ## C20 -/

/-- What the constructors guarantee about every command in a tree. -/
def NodeOk (c : Cmd) : Prop :=
  c.data.check = true ∧ (∀ o ∈ c.data.options, o.check = true) ∧
  (∀ p ∈ c.data.positionals, Pos.init p = .ok p) ∧
  (c.children.map (fun y => y.data.prog)).Nodup ∧ (c.sub = none → c.children = [])

mutual
/-- `NodeOk` everywhere. -/
def Cmd.Ok : Cmd → Prop
  | .node d s ch => NodeOk (.node d s ch) ∧ Cmd.OkList ch
/-- The same for a list. -/
def Cmd.OkList : List Cmd → Prop
  | [] => True
  | c :: cs => c.Ok ∧ Cmd.OkList cs
end

theorem okList_iff (ch : List Cmd) : Cmd.OkList ch ↔ ∀ c ∈ ch, c.Ok := by
  induction ch with
  | nil => simp [Cmd.OkList]
  | cons c cs ih => simp [Cmd.OkList, ih]

theorem ok_iff (c : Cmd) : c.Ok ↔ NodeOk c ∧ ∀ x ∈ c.children, x.Ok := by
  cases c with
  | node d s ch => simp only [Cmd.Ok, okList_iff, Cmd.children]

theorem ok_at (c : Cmd) (h : c.Ok) (a : List Nat) (x : Cmd) (hx : c.at a = some x) : x.Ok := by
  induction a generalizing c with
  | nil => simp [Cmd.at] at hx; subst hx; exact h
  | cons i is ih =>
    rw [ok_iff] at h
    cases c with
    | node d s ch =>
      simp only [Cmd.at] at hx
      cases hi : ch[i]? with
      | none => rw [hi] at hx; cases hx
      | some ci => rw [hi] at hx; exact ih ci (h.2 ci (List.mem_of_getElem? hi)) hx

theorem posInit_idem {p p' : Pos} (h : Pos.init p = .ok p') : Pos.init p' = .ok p' := by
  unfold Pos.init at h ⊢
  by_cases hc : (captureOk p.capture && decide (p.number > 0)) = true
  · rw [if_pos hc] at h
    simp only [Except.ok.injEq] at h
    subst h
    rw [if_pos hc]
    by_cases he : p.complete.isEmpty = true
    · simp [he]
    · simp [he]
  · rw [if_neg hc] at h; cases h

theorem optInit_ok {o o' : Opt} (h : Opt.init o = .ok o') : o' = o ∧ o.check = true := by
  unfold Opt.init at h
  split at h
  · rename_i hc; simp only [Except.ok.injEq] at h; exact ⟨h.symm, hc⟩
  · cases h

theorem find_none_of_not_mem {ch : List Cmd} {n : Str} :
    (subByName ch n).isSome = false ↔ n ∉ ch.map (fun y => y.data.prog) := by
  unfold subByName
  rw [Option.isSome_eq_false_iff, Option.isNone_iff_eq_none, List.find?_eq_none]
  simp only [decide_eq_true_eq, List.mem_map, not_exists, not_and]

theorem addSub_ok {ch ch' : List Cmd} {c : Cmd} (h : addSub ch c = .ok ch') :
    ch' = ch ++ [c] ∧ c.data.prog ∉ ch.map (fun y => y.data.prog) := by
  unfold addSub at h
  split at h
  · cases h
  · rename_i hc
    simp only [Except.ok.injEq] at h
    exact ⟨h.symm, find_none_of_not_mem.1 (by simpa using hc)⟩

theorem api_ok {m : Option Cmd} {c : Cmd} (h : Api m c) :
    match m with
    | none => c.Ok
    | some a => a.Ok → c.Ok ∧ c.data.prog = a.data.prog := by
  induction h with
  | new hc ho hp =>
    rename_i d
    rw [ok_iff]
    refine ⟨⟨hc, ?_, ?_, ?_, ?_⟩, ?_⟩
    · intro o h; simp only [Cmd.data] at h; rw [ho] at h; simp at h
    · intro o h; simp only [Cmd.data] at h; rw [hp] at h; simp at h
    · simp [Cmd.children]
    · intro _; rfl
    · simp [Cmd.children]
  | step _ _ ih1 ih2 => exact (ih2 ih1).1
  | addOption ho =>
    rename_i d s ch o o'
    intro h
    rw [ok_iff] at h ⊢
    obtain ⟨⟨a, b, c, e, f⟩, g⟩ := h
    refine ⟨⟨⟨a, ?_, c, e, f⟩, g⟩, rfl⟩
    intro x hx
    simp only [Cmd.data, List.mem_append] at hx
    rcases hx with hx | hx
    · exact b x hx
    · simp at hx; subst hx
      obtain ⟨rfl, hh⟩ := optInit_ok ho
      exact hh
  | addPositional hp =>
    rename_i d s ch p p'
    intro h
    rw [ok_iff] at h ⊢
    obtain ⟨⟨a, b, c, e, f⟩, g⟩ := h
    refine ⟨⟨⟨a, b, ?_, e, f⟩, g⟩, rfl⟩
    intro x hx
    simp only [Cmd.data, List.mem_append] at hx
    rcases hx with hx | hx
    · exact c x hx
    · simp at hx; subst hx; exact posInit_idem hp
  | addToGroup he =>
    rename_i d s ch pre o post g
    intro h
    rw [ok_iff] at h ⊢
    obtain ⟨⟨a, b, c, e, f⟩, g'⟩ := h
    refine ⟨⟨⟨a, ?_, c, e, f⟩, g'⟩, rfl⟩
    intro x hx
    simp only [Cmd.data] at hx b
    rw [he] at b
    simp only [List.mem_append, List.mem_cons] at hx b
    rcases hx with hx | hx | hx
    · exact b x (Or.inl hx)
    · have := b o (Or.inr (Or.inl rfl))
      rw [hx]; exact this
    · exact b x (Or.inr (Or.inr hx))
  | addSubcommands he =>
    rename_i a b
    intro h
    cases a with
    | node d s ch =>
      cases s with
      | some n => simp [Cmd.addSubcommands] at he
      | none =>
        simp only [Cmd.addSubcommands, Except.ok.injEq] at he
        subst he
        rw [ok_iff] at h ⊢
        obtain ⟨⟨a, b, c, e, f⟩, g⟩ := h
        refine ⟨⟨⟨a, b, c, by simp [Cmd.children], by simp [Cmd.sub]⟩, by simp [Cmd.children]⟩, rfl⟩
  | addSubcommand _ hadd ih =>
    rename_i d n ch c ch' _
    intro h
    obtain ⟨rfl, hn⟩ := addSub_ok hadd
    rw [ok_iff] at h ⊢
    obtain ⟨⟨a, b, c', e, f⟩, g⟩ := h
    refine ⟨⟨⟨a, b, c', ?_, by simp [Cmd.sub]⟩, ?_⟩, rfl⟩
    · simp only [Cmd.children, List.map_append, List.map_cons, List.map_nil] at e ⊢
      rw [List.nodup_append]
      refine ⟨e, by simp, ?_⟩
      intro x hx y hy
      simp at hy; subst hy
      rintro rfl; exact hn hx
    · intro x hx
      simp only [Cmd.children, List.mem_append, List.mem_cons, List.not_mem_nil, or_false] at hx
      rcases hx with hx | rfl
      · exact g x hx
      · exact ih
  | inside _ ih =>
    rename_i d s pre a post b _
    intro h
    rw [ok_iff] at h ⊢
    obtain ⟨⟨a1, a2, a3, e, f⟩, g⟩ := h
    have ha := ih (g a (by simp [Cmd.children]))
    refine ⟨⟨⟨a1, a2, a3, ?_, ?_⟩, ?_⟩, rfl⟩
    · simp only [Cmd.children, List.map_append, List.map_cons] at e ⊢
      rw [ha.2]; exact e
    · intro hs
      have := f hs
      simp [Cmd.children] at this
    · intro x hx
      simp only [Cmd.children, List.mem_append, List.mem_cons] at hx
      rcases hx with hx | rfl | hx
      · exact g x (by simp [Cmd.children, hx])
      · exact ha.1
      · exact g x (by simp [Cmd.children, hx])

/-- A constructor that changes nothing in any element changes nothing in the list. -/
theorem initAll_ok {α} (f : α → Except Err α) (l : List α) (h : ∀ x ∈ l, f x = .ok x) :
    initAll f l = .ok l := by
  induction l with
  | nil => rfl
  | cons x xs ih =>
    simp only [initAll, h x (by simp), ih (fun y hy => h y (by simp [hy]))]
    rfl

theorem addSubs_ok (cs acc : List Cmd)
    (hn : ((acc ++ cs).map (fun y => y.data.prog)).Nodup) : addSubs acc cs = .ok (acc ++ cs) := by
  induction cs generalizing acc with
  | nil => simp [addSubs]
  | cons c cs ih =>
    have h1 : (subByName acc c.data.prog).isSome = false := by
      rw [find_none_of_not_mem]
      rw [List.map_append, List.nodup_append] at hn
      intro hm
      exact hn.2.2 _ hm _ (List.mem_map.2 ⟨c, by simp, rfl⟩) rfl
    have h2 : addSub acc c = .ok (acc ++ [c]) := by
      unfold addSub; rw [h1]; rfl
    simp only [addSubs, h2]
    show addSubs (acc ++ [c]) cs = _
    rw [ih]
    · simp
    · simpa using hn

theorem renumberList_eq (ch : List Cmd) : Cmd.renumberList ch = ch.map Cmd.renumber := by
  induction ch with
  | nil => rfl
  | cons c cs ih => simp [Cmd.renumberList, ih]

theorem renumber_prog (c : Cmd) : c.renumber.data = c.data := by cases c; rfl

theorem copyList_ok (ch : List Cmd) (h : ∀ c ∈ ch, c.copy = .ok c.renumber) :
    Cmd.copyList ch = .ok (ch.map Cmd.renumber) := by
  induction ch with
  | nil => rfl
  | cons c cs ih =>
    simp only [Cmd.copyList, h c (by simp), ih (fun x hx => h x (by simp [hx]))]
    rfl

theorem copy_ok (c : Cmd) (h : c.Ok) : c.copy = .ok c.renumber := by
  induction c using Cmd.ind with
  | h d s ch ih =>
    rw [ok_iff] at h
    obtain ⟨⟨h1, h2, h3, h4, h5⟩, h6⟩ := h
    simp only [Cmd.data, Cmd.children, Cmd.sub] at h1 h2 h3 h4 h5 h6
    have e1 := initAll_ok Opt.init d.options (fun o ho => by unfold Opt.init; rw [h2 o ho]; rfl)
    have e2 := initAll_ok Pos.init d.positionals h3
    have e3 := copyList_ok ch (fun c hc => ih c hc (h6 c hc))
    have e4 : addSubs [] (ch.map Cmd.renumber) = .ok (ch.map Cmd.renumber) := by
      rw [addSubs_ok]
      · simp
      · simp only [List.nil_append, List.map_map]
        have : ((fun y : Cmd => y.data.prog) ∘ Cmd.renumber) = fun y => y.data.prog := by
          funext y; simp [renumber_prog]
        rw [this]; exact h4
    simp only [Cmd.copy, h1, e1, e2]
    cases s with
    | none =>
      have := h5 rfl
      subst this
      rfl
    | some n =>
      simp only [e3]
      show (addSubs [] (ch.map Cmd.renumber) >>= fun cs' =>
        Except.ok (Cmd.node _ (some (highestNumber d.positionals + 1)) cs')) = _
      rw [e4, highest_eq]
      simp only [Cmd.renumber, renumberList_eq]
      rfl

theorem renumber_eqv (c : Cmd) : c.renumber.eqv c = true := by
  induction c using Cmd.ind with
  | h d s ch ih =>
    have : Cmd.eqvList (Cmd.renumberList ch) ch = true := by
      clear s
      induction ch with
      | nil => rfl
      | cons c cs ih2 =>
        simp only [Cmd.renumberList, Cmd.eqvList, ih c (by simp),
          ih2 (fun x hx => ih x (by simp [hx])), Bool.and_self]
    simp only [Cmd.renumber, Cmd.eqv, zip_self_all, this]
    cases s <;> simp

/-- **C20**: `copy` of any command line built with the API succeeds, and the result is the same
command line with every subcommand slot numbered after the positionals of its command. In
particular it equals the original (as `==` sees it). -/
theorem C20_copy (c : Cmd) (h : Api none c) : c.copy = .ok c.renumber ∧ c.renumber.eqv c = true :=
  ⟨copy_ok c (api_ok h), renumber_eqv c⟩

mutual
theorem renumber_id (c : Cmd) (h : ∀ a x, c.at a = some x → WellNumbered x) : c.renumber = c := by
  cases c with
  | node d s ch =>
    simp only [Cmd.renumber]
    have h1 := h [] (.node d s ch) rfl
    have h2 : Cmd.renumberList ch = ch :=
      renumberList_id ch (fun i ci hi a x hx => h (i :: a) x (by simp [Cmd.at, hi, hx]))
    rw [h2]
    cases s with
    | none => rfl
    | some n =>
      have := h1 n rfl
      simp only [Cmd.data] at this
      simp [this]
theorem renumberList_id (ch : List Cmd)
    (h : ∀ (i : Nat) (ci : Cmd), ch[i]? = some ci → ∀ a x, ci.at a = some x → WellNumbered x) :
    Cmd.renumberList ch = ch := by
  cases ch with
  | nil => rfl
  | cons c cs =>
    simp only [Cmd.renumberList]
    rw [renumber_id c (h 0 c rfl), renumberList_id cs (fun i ci hi => h (i + 1) ci (by simpa using hi))]
end

/-- **C20**: if no positional was added after the subcommands, the copy is identical in every
attribute. -/
theorem C20_identical (c : Cmd) (h : Api none c) (hw : ∀ a x, c.at a = some x → WellNumbered x) :
    c.copy = .ok c := by
  rw [(C20_copy c h).1, renumber_id c hw]

theorem renumber_at (c : Cmd) (a : List Nat) : c.renumber.at a = (c.at a).map Cmd.renumber := by
  induction a generalizing c with
  | nil => simp [Cmd.at]
  | cons i is ih =>
    cases c with
    | node d s ch =>
      simp only [Cmd.renumber, Cmd.at, renumberList_eq, List.getElem?_map]
      cases ch[i]? with
      | none => rfl
      | some ci => simp [ih]

/-- **C20**: every command of a copy has its slot numbered correctly (see C18), so the absolute
numbers of C18 are right in every copy. -/
theorem C20_well_numbered (c c' : Cmd) (h : Api none c) (hc : c.copy = .ok c') (a : List Nat) (x : Cmd)
    (hx : c'.at a = some x) : WellNumbered x := by
  rw [(C20_copy c h).1] at hc
  cases hc
  rw [renumber_at, Option.map_eq_some_iff] at hx
  obtain ⟨y, _, rfl⟩ := hx
  cases y with
  | node d s ch =>
    intro n hn
    simp only [Cmd.renumber, Cmd.sub, Option.map_eq_some_iff] at hn
    obtain ⟨_, _, rfl⟩ := hn
    rfl

/-- **C20**: names of siblings are unique in everything built with the API (used by C19). -/
theorem C20_unique_names (c : Cmd) (h : Api none c) : UniqueNames c := by
  intro a x hx
  have := ok_at c (api_ok h) a x hx
  rw [ok_iff] at this
  exact this.1.2.2.2.1

/-- A tree with an option, a positional and a subcommand can be built, and the slot becomes stale
when the positional is added last. -/
theorem C20_example : ∃ c, Api none c ∧ c.data.options.length = 1 ∧ c.data.positionals.length = 1 ∧
    c.children.length = 1 ∧ ¬ WellNumbered c := by
  let d0 : CmdData := { prog := S "p" }
  let sub := Cmd.node { prog := S "s" } none []
  have h0 : Api none (.node d0 none []) := Api.new (by decide) rfl rfl
  have h1 := Api.step h0 (Api.addOption (o := { strings := [S "-a"] }) (o' := { strings := [S "-a"] }) rfl)
  have h2 := Api.step h1 (Api.addSubcommands rfl)
  have h3 := Api.step h2 (Api.addSubcommand (c := sub) (Api.new (by decide) rfl rfl) rfl)
  have h4 := Api.step h3 (Api.addPositional (p := { number := 1 }) (p' := { number := 1 }) rfl)
  refine ⟨_, h4, rfl, rfl, rfl, ?_⟩
  intro h
  have := h 1 rfl
  exact absurd this (by decide)

/-! ## C21 -/

theorem mapDataList_eq (f : CmdData → CmdData) (ch : List Cmd) :
    Cmd.mapDataList f ch = ch.map (Cmd.mapData f) := by
  induction ch with
  | nil => rfl
  | cons c cs ih => simp [Cmd.mapDataList, ih]

theorem mapData_at (f : CmdData → CmdData) (c : Cmd) (a : List Nat) :
    (c.mapData f).at a = (c.at a).map (Cmd.mapData f) := by
  induction a generalizing c with
  | nil => simp [Cmd.at]
  | cons i is ih =>
    cases c with
    | node d s ch =>
      simp only [Cmd.mapData, Cmd.at, mapDataList_eq, List.getElem?_map]
      cases ch[i]? with
      | none => rfl
      | some ci => simp [ih]

/-- The result of a successful `enhance_commandline` of an API-built command line: every command is
at its place with its configured attributes, and nothing is added or removed. -/
theorem enhance_ok (isRegex : Str → Bool) (v : Cmd → Except Err Unit) (cfg : Config) (c c' : Cmd)
    (hb : Api none c) (h : enhance isRegex v cfg c = .ok c') :
    c' = c.renumber.mapData (applyConfig cfg) := by
  unfold enhance at h
  rw [(C20_copy c hb).1] at h
  simp only [bind, Except.bind] at h
  split at h
  · cases h
  · split at h
    · cases h
    · simp only [Except.ok.injEq] at h; exact h.symm

/-- **C21**: same tree: the same addresses exist, with the same names, aliases, help texts and
`wraps`, the same number of options and positionals, and the same subcommand slots. -/
theorem C21_same_tree (isRegex : Str → Bool) (v : Cmd → Except Err Unit) (cfg : Config) (c c' : Cmd)
    (hb : Api none c) (h : enhance isRegex v cfg c = .ok c') (a : List Nat) :
    (c'.at a).isSome = (c.at a).isSome ∧
    ∀ x x', c.at a = some x → c'.at a = some x' →
      x'.data.prog = x.data.prog ∧ x'.data.help = x.data.help ∧ x'.data.aliases = x.data.aliases ∧
      x'.data.wraps = x.data.wraps ∧ x'.data.options.length = x.data.options.length ∧
      x'.data.positionals.length = x.data.positionals.length ∧ x'.sub.isSome = x.sub.isSome := by
  rw [enhance_ok isRegex v cfg c c' hb h, mapData_at, renumber_at]
  refine ⟨by cases c.at a <;> rfl, ?_⟩
  intro x x' hx hx'
  rw [hx] at hx'
  simp only [Option.map_some, Option.some.injEq] at hx'
  subst hx'
  cases x with
  | node d s ch =>
    simp only [Cmd.renumber, Cmd.mapData, Cmd.data, Cmd.sub, applyConfig]
    refine ⟨?_, ?_, ?_, ?_, ?_, ?_, by cases s <;> rfl⟩ <;>
      (repeat' split) <;> simp

/-- The setting after configuration: kept if it was given, else taken from the configuration. -/
def resolve (e : ExtBool) (b : Bool) : ExtBool := match e with
  | .inherit => .val b
  | .val x => .val x

theorem resolve_if (e : ExtBool) (b : Bool) : (if e = .inherit then ExtBool.val b else e) = resolve e b := by
  cases e <;> simp [resolve]

/-- **C21**: settings of every command: given values are kept, inherited ones come from the
configuration. -/
theorem C21_commands (isRegex : Str → Bool) (v : Cmd → Except Err Unit) (cfg : Config) (c c' : Cmd)
    (hb : Api none c) (h : enhance isRegex v cfg c = .ok c') (a : List Nat) (x x' : Cmd)
    (hx : c.at a = some x) (hx' : c'.at a = some x') :
    x'.data.abbreviateCommands = resolve x.data.abbreviateCommands cfg.abbreviateCommands ∧
    x'.data.abbreviateOptions = resolve x.data.abbreviateOptions cfg.abbreviateOptions ∧
    x'.data.inheritOptions = resolve x.data.inheritOptions cfg.inheritOptions := by
  rw [enhance_ok isRegex v cfg c c' hb h, mapData_at, renumber_at, hx] at hx'
  simp only [Option.map_some, Option.some.injEq] at hx'
  subst hx'
  cases x with
  | node d s ch =>
    simp only [Cmd.renumber, Cmd.mapData, Cmd.data, applyConfig]
    refine ⟨?_, ?_, ?_⟩
    · rw [← resolve_if]; (repeat' split) <;> simp_all
    · rw [← resolve_if]; (repeat' split) <;> simp_all
    · rw [← resolve_if]; (repeat' split) <;> simp_all

/-- **C21**: what happens to every option: only the named attributes change. -/
theorem C21_options (isRegex : Str → Bool) (v : Cmd → Except Err Unit) (cfg : Config) (c c' : Cmd)
    (hb : Api none c) (h : enhance isRegex v cfg c = .ok c') (a : List Nat) (x x' : Cmd)
    (hx : c.at a = some x) (hx' : c'.at a = some x') (i : Nat) (o : Opt)
    (ho : x.data.options[i]? = some o) :
    ∃ o', x'.data.options[i]? = some o' ∧
      o'.repeatable = (if cfg.disabledRepeatable then .val true else resolve o.repeatable cfg.repeatableOptions) ∧
      o'.longSep = (if o.longSep = .inherit then cfg.longSep else o.longSep) ∧
      o'.hidden = (o.hidden && !cfg.disabledHidden) ∧
      o'.final = (o.final && !cfg.disabledFinal) ∧
      o'.groups = (if cfg.disabledGroups then some [] else o.groups) ∧
      o'.when_ = (if cfg.disabledWhen then none else o.when_) ∧
      o'.strings = o.strings ∧ o'.metavar = o.metavar ∧ o'.help = o.help ∧ o'.complete = o.complete ∧
      o'.nosort = o.nosort ∧ o'.optionalArg = o.optionalArg ∧ o'.capture = o.capture := by
  rw [enhance_ok isRegex v cfg c c' hb h, mapData_at, renumber_at, hx] at hx'
  simp only [Option.map_some, Option.some.injEq] at hx'
  subst hx'
  cases x with
  | node d s ch =>
    refine ⟨applyOpt cfg o, ?_, ?_⟩
    · simp only [Cmd.renumber, Cmd.mapData, Cmd.data, applyConfig] at ho ⊢
      have : ∀ d' : CmdData, d'.options = d.options →
          (d'.options.map (applyOpt cfg))[i]? = some (applyOpt cfg o) := by
        intro d' hd'; rw [hd', List.getElem?_map, ho]; rfl
      apply this
      (repeat' split) <;> rfl
    · unfold applyOpt
      rw [← resolve_if]
      cases h1 : cfg.disabledHidden <;> cases h2 : cfg.disabledFinal <;> cases h3 : cfg.disabledGroups <;>
        cases h4 : cfg.disabledRepeatable <;> cases h5 : cfg.disabledWhen <;>
        by_cases h6 : o.repeatable = .inherit <;> by_cases h7 : o.longSep = .inherit <;>
        simp [h6, h7]

/-- **C21**: what happens to every positional. -/
theorem C21_positionals (isRegex : Str → Bool) (v : Cmd → Except Err Unit) (cfg : Config) (c c' : Cmd)
    (hb : Api none c) (h : enhance isRegex v cfg c = .ok c') (a : List Nat) (x x' : Cmd)
    (hx : c.at a = some x) (hx' : c'.at a = some x') (i : Nat) (p : Pos)
    (hp : x.data.positionals[i]? = some p) :
    x'.data.positionals[i]? = some { p with when_ := if cfg.disabledWhen then none else p.when_ } := by
  rw [enhance_ok isRegex v cfg c c' hb h, mapData_at, renumber_at, hx] at hx'
  simp only [Option.map_some, Option.some.injEq] at hx'
  subst hx'
  cases x with
  | node d s ch =>
    simp only [Cmd.renumber, Cmd.mapData, Cmd.data, applyConfig] at hp ⊢
    have : ∀ d' : CmdData, d'.positionals = d.positionals →
        (d'.positionals.map (applyPos cfg))[i]? = some (applyPos cfg p) := by
      intro d' hd'; rw [hd', List.getElem?_map, hp]; rfl
    rw [this]
    · unfold applyPos; cases cfg.disabledWhen <;> simp
    · (repeat' split) <;> rfl

/-- **C21**: no inherited setting is left (the configuration's own separator is never `INHERIT`). -/
theorem C21_nothing_inherited (isRegex : Str → Bool) (v : Cmd → Except Err Unit) (cfg : Config) (c c' : Cmd)
    (hb : Api none c) (h : enhance isRegex v cfg c = .ok c') (hcfg : cfg.longSep ≠ .inherit)
    (a : List Nat) (x' : Cmd) (hx' : c'.at a = some x') :
    x'.data.abbreviateCommands ≠ .inherit ∧ x'.data.abbreviateOptions ≠ .inherit ∧
    x'.data.inheritOptions ≠ .inherit ∧
    ∀ o ∈ x'.data.options, o.repeatable ≠ .inherit ∧ o.longSep ≠ .inherit := by
  have hs := (C21_same_tree isRegex v cfg c c' hb h a).1
  rw [hx'] at hs
  obtain ⟨x, hx⟩ := Option.isSome_iff_exists.1 hs.symm
  have hne : ∀ e b, resolve e b ≠ .inherit := by intro e b; cases e <;> simp [resolve]
  obtain ⟨h1, h2, h3⟩ := C21_commands isRegex v cfg c c' hb h a x x' hx hx'
  refine ⟨by rw [h1]; exact hne _ _, by rw [h2]; exact hne _ _, by rw [h3]; exact hne _ _, ?_⟩
  intro o' ho'
  obtain ⟨i, hi⟩ := List.mem_iff_getElem?.1 ho'
  have hlen := ((C21_same_tree isRegex v cfg c c' hb h a).2 x x' hx hx').2.2.2.2.1
  have hi2 : i < x.data.options.length := by
    rw [← hlen]; exact (List.getElem?_eq_some_iff.1 hi).1
  obtain ⟨o'', e1, e2, e3, _⟩ := C21_options isRegex v cfg c c' hb h a x x' hx hx' i _
    (List.getElem?_eq_getElem hi2)
  rw [hi] at e1
  cases e1
  rw [e2, e3]
  constructor
  · split
    · simp
    · exact hne _ _
  · split
    · exact hcfg
    · assumption

/-- **C21**: applying the configuration a second time changes nothing. -/
theorem C21_idempotent (cfg : Config) (d : CmdData) (hcfg : cfg.longSep ≠ .inherit) :
    applyConfig cfg (applyConfig cfg d) = applyConfig cfg d := by
  have ho : ∀ o, applyOpt cfg (applyOpt cfg o) = applyOpt cfg o := by
    intro o
    unfold applyOpt
    cases h1 : cfg.disabledHidden <;> cases h2 : cfg.disabledFinal <;> cases h3 : cfg.disabledGroups <;>
      cases h4 : cfg.disabledRepeatable <;> cases h5 : cfg.disabledWhen <;>
      by_cases h6 : o.repeatable = .inherit <;> by_cases h7 : o.longSep = .inherit <;>
      simp [h6, h7, hcfg]
  have hp : ∀ p, applyPos cfg (applyPos cfg p) = applyPos cfg p := by
    intro p; unfold applyPos; cases cfg.disabledWhen <;> simp
  unfold applyConfig
  by_cases h1 : d.abbreviateCommands = .inherit <;> by_cases h2 : d.abbreviateOptions = .inherit <;>
    by_cases h3 : d.inheritOptions = .inherit <;>
    simp [h1, h2, h3, List.map_map, Function.comp_def, ho, hp]

/-- **C21**: on success every `when` left in the tree parses. -/
theorem C21_whens (isRegex : Str → Bool) (v : Cmd → Except Err Unit) (cfg : Config) (c c' : Cmd)
    (h : enhance isRegex v cfg c = .ok c') :
    ∀ x ∈ c'.all, ∀ w, ((∃ o ∈ x.data.options, o.when_ = some w) ∨
      (∃ p ∈ x.data.positionals, p.when_ = some w)) → w ≠ [] → ∃ r, parseWhen isRegex w = .ok r := by
  unfold enhance at h
  simp only [bind, Except.bind] at h
  split at h
  · cases h
  · rename_i cc hcc
    split at h
    · cases h
    · rename_i u hu
      split at h
      · cases h
      · simp only [Except.ok.injEq] at h
        subst h
        have key : ∀ ws, checkWhens isRegex ws = .ok u → ∀ w ∈ ws, ∃ r, parseWhen isRegex w = .ok r := by
          intro ws
          induction ws with
          | nil => simp
          | cons w ws ih =>
            intro hw x hx
            simp only [checkWhens] at hw
            cases hp : parseWhen isRegex w with
            | error e => rw [hp] at hw; cases hw
            | ok r =>
              rw [hp] at hw
              simp only [List.mem_cons] at hx
              rcases hx with rfl | hx
              · exact ⟨r, hp⟩
              · exact ih hw x hx
        intro x hx w hw hne
        apply key _ hu
        rw [List.mem_flatMap]
        refine ⟨x, hx, ?_⟩
        unfold whensOf
        rw [List.mem_filter]
        refine ⟨?_, by cases w with | nil => exact absurd rfl hne | cons => rfl⟩
        rw [List.mem_append, List.mem_filterMap, List.mem_filterMap]
        exact hw

example : (enhance (fun _ => true) (fun _ => .ok ()) { disabledGroups := true, repeatableOptions := true }
    (.node { prog := S "p", options := [{ strings := [S "-a"], groups := some [S "g"] }] } none [])).isOk = true := rfl

/-! ## C22 -/

/-- A history of `add_commandline_object` calls on one subcommands option, rejected calls included.
The second component says which calls were accepted. -/
def addHistory : List Cmd → List Cmd → List Cmd × List Bool
  | ch, [] => (ch, [])
  | ch, c :: cs =>
    match addSub ch c with
    | .ok ch' => let r := addHistory ch' cs; (r.1, true :: r.2)
    | .error _ => let r := addHistory ch cs; (r.1, false :: r.2)

/-- **C22**: after any history the names are distinct, and the list consists of exactly the first
command given for each name, in order. -/
theorem C22_history (cs : List Cmd) :
    ((addHistory [] cs).1.map (fun c => c.data.prog)).Nodup ∧
    (∀ n, (addHistory [] cs).1.find? (fun c => decide (c.data.prog = n)) =
      cs.find? (fun c => decide (c.data.prog = n))) ∧
    (addHistory [] cs).1.Sublist cs := by
  have key : ∀ (cs ch : List Cmd), (ch.map (fun c => c.data.prog)).Nodup →
      ((addHistory ch cs).1.map (fun c => c.data.prog)).Nodup ∧
      (∀ n, (addHistory ch cs).1.find? (fun c => decide (c.data.prog = n)) =
        (ch ++ cs).find? (fun c => decide (c.data.prog = n))) ∧
      (∃ new, (addHistory ch cs).1 = ch ++ new ∧ new.Sublist cs) := by
    intro cs
    induction cs with
    | nil => intro ch h; exact ⟨h, by simp [addHistory], [], by simp [addHistory]⟩
    | cons c cs ih =>
      intro ch h
      simp only [addHistory]
      cases ha : addSub ch c with
      | error e =>
        simp only
        obtain ⟨h1, h2, new, h3, h4⟩ := ih ch h
        refine ⟨h1, ?_, new, h3, h4.cons c⟩
        intro n
        rw [h2]
        have hm : c.data.prog ∈ ch.map (fun y => y.data.prog) := by
          unfold addSub at ha
          split at ha
          · rename_i hs
            rw [← Decidable.not_not (p := c.data.prog ∈ _), ← find_none_of_not_mem, hs]; simp
          · cases ha
        simp only [List.find?_append, List.find?_cons]
        by_cases hn : c.data.prog = n
        · obtain ⟨y, hy, hyn⟩ := List.mem_map.1 hm
          cases hf : ch.find? (fun c => decide (c.data.prog = n)) with
          | some z => simp
          | none =>
            rw [List.find?_eq_none] at hf
            exact absurd (hf y hy) (by simp [hyn, hn])
        · simp [hn]
      | ok ch' =>
        obtain ⟨rfl, hnot⟩ := addSub_ok ha
        simp only
        obtain ⟨h1, h2, new, h3, h4⟩ := ih (ch ++ [c]) (by
          rw [List.map_append, List.nodup_append]
          refine ⟨h, by simp, ?_⟩
          intro x hx y hy
          simp at hy; subst hy
          rintro rfl; exact hnot hx)
        refine ⟨h1, ?_, c :: new, by rw [h3]; simp, h4.cons_cons c⟩
        intro n; rw [h2]; simp
  obtain ⟨h1, h2, new, h3, h4⟩ := key cs [] (by simp)
  exact ⟨h1, by simpa using h2, by rw [h3]; simpa using h4⟩

/-- **C22**: a call is rejected exactly if the name is taken; a rejected call leaves the list as it
was (the model's list is only replaced on success), an accepted one appends the command. -/
theorem C22_step (ch : List Cmd) (c : Cmd) :
    addSub ch c = (if c.data.prog ∈ ch.map (fun y => y.data.prog) then .error .crazyError else .ok (ch ++ [c])) := by
  unfold addSub
  by_cases h : c.data.prog ∈ ch.map (fun y => y.data.prog)
  · have : (subByName ch c.data.prog).isSome = true := by
      rw [← Bool.not_eq_false, find_none_of_not_mem]; exact fun hh => hh h
    rw [this, if_pos h]; rfl
  · rw [if_neg h, find_none_of_not_mem.2 h]; rfl

/-- **C22**: looking up a name returns the (only) subcommand with that name. -/
theorem C22_lookup (ch : List Cmd) (hn : (ch.map (fun c => c.data.prog)).Nodup) (c : Cmd) (hc : c ∈ ch) :
    subByName ch c.data.prog = some c := by
  unfold subByName
  induction ch with
  | nil => simp at hc
  | cons x xs ih =>
    simp only [List.map_cons, List.nodup_cons] at hn
    simp only [List.mem_cons] at hc
    rw [List.find?_cons]
    rcases hc with rfl | hc
    · simp
    · have : x.data.prog ≠ c.data.prog := by
        intro h; exact hn.1 (List.mem_map.2 ⟨c, hc, h.symm⟩)
      simp only [this, decide_false]
      exact ih hn.2 hc

example : ((addHistory [] [.node { prog := S "a" } none [], .node { prog := S "b" } none [],
    .node { prog := S "a", help := some (S "x") } none []]).2) = [true, true, false] := rfl

end CC
