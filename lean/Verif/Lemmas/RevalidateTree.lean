import Verif.Lemmas.Revalidate
import Verif.Props.CliTree
/-!
# Lemmas about checking a tree of command line objects again
-/

namespace CC

mutual
/-- The paths and attributes in the order of traversal. -/
def pathsOf (parents : List Str) : Cmd → List (List Str × CmdData)
  | .node d _ ch => (parents ++ [d.prog], d) :: pathsOfList (parents ++ [d.prog]) ch
/-- The same for a list. -/
def pathsOfList (parents : List Str) : List Cmd → List (List Str × CmdData)
  | [] => []
  | c :: cs => pathsOf parents c ++ pathsOfList parents cs
end

/-- The document of a command. -/
def docOf (e : List Str × CmdData) : List (Key × Val) := commandEntries (joinWith [' '] e.1) e.2

theorem definitionsOf_eq (c : Cmd) (parents : List Str) :
    definitionsOf parents c = (pathsOf parents c).map (fun e => .dict (docOf e)) := by
  induction c using Cmd.ind generalizing parents with
  | h d s ch ih =>
    simp only [definitionsOf, pathsOf, List.map_cons, docOf, List.cons.injEq, true_and]
    generalize parents ++ [d.prog] = ps
    clear s
    induction ch with
    | nil => rfl
    | cons c cs ihl =>
      simp only [definitionsOfList, pathsOfList, List.map_append]
      rw [ih c (by simp), ihl (fun x hx => ih x (by simp [hx]))]
      rfl

theorem mem_pathsOfList (parents : List Str) (cs : List Cmd) (e : List Str × CmdData) :
    e ∈ pathsOfList parents cs ↔ ∃ c ∈ cs, e ∈ pathsOf parents c := by
  induction cs with
  | nil => simp [pathsOfList]
  | cons c cs ih => simp [pathsOfList, ih]

theorem mem_pathsOf (c : Cmd) (parents : List Str) (p : List Str) (d : CmdData) :
    (p, d) ∈ pathsOf parents c ↔
      ∃ a x q, c.at a = some x ∧ c.namesAt a = some q ∧ p = parents ++ q ∧ x.data = d := by
  induction c using Cmd.ind generalizing parents p d with
  | h d0 s ch ih =>
    simp only [pathsOf, List.mem_cons, Prod.mk.injEq, mem_pathsOfList]
    constructor
    · rintro (⟨rfl, rfl⟩ | ⟨c, hc, hm⟩)
      · exact ⟨[], _, _, rfl, rfl, rfl, rfl⟩
      · obtain ⟨a, x, q, h1, h2, rfl, rfl⟩ := (ih c hc _ _ _).1 hm
        obtain ⟨i, hi⟩ := List.getElem?_of_mem hc
        exact ⟨i :: a, x, d0.prog :: q, by simp [Cmd.at, hi, h1], by simp [Cmd.namesAt, hi, h2], by simp, rfl⟩
    · rintro ⟨a, x, q, h1, h2, rfl, rfl⟩
      cases a with
      | nil =>
        simp only [Cmd.at, Option.some.injEq] at h1
        simp only [Cmd.namesAt, Option.some.injEq] at h2
        subst h1 h2
        exact .inl ⟨rfl, rfl⟩
      | cons i is =>
        cases hi : ch[i]? with
        | none => simp [Cmd.at, hi] at h1
        | some c =>
          simp only [Cmd.at, hi] at h1
          simp only [Cmd.namesAt, hi, Option.map_eq_some_iff] at h2
          obtain ⟨q', h2, rfl⟩ := h2
          exact .inr ⟨c, List.mem_of_getElem? hi, (ih c (List.mem_of_getElem? hi) _ _ _).2
            ⟨is, x, q', h1, h2, by simp, rfl⟩⟩

theorem pathsOf_prefix (c : Cmd) (parents : List Str) (e : List Str × CmdData) (h : e ∈ pathsOf parents c) :
    parents ++ [c.data.prog] <+: e.1 := by
  obtain ⟨p, d⟩ := e
  obtain ⟨a, x, q, _, h2, rfl, _⟩ := (mem_pathsOf c parents p d).1 h
  obtain ⟨t, rfl⟩ := namesAt_cons c a q h2
  exact ⟨t, by simp⟩

theorem orderedAfter_append (added xs ys : List (List Str)) :
    OrderedAfter added (xs ++ ys) ↔ OrderedAfter added xs ∧ OrderedAfter (added ++ xs) ys := by
  induction xs generalizing added with
  | nil => simp [OrderedAfter]
  | cons x xs ih => simp [OrderedAfter, ih, and_assoc]

theorem ordered_pathsOf (c : Cmd) (hu : UniqueNames c) (parents : List Str) (added : List (List Str))
    (hp : parents = [] ∨ parents ∈ added) (hn : ∀ q ∈ added, ¬ parents ++ [c.data.prog] <+: q) :
    OrderedAfter added ((pathsOf parents c).map (·.1)) := by
  induction c using Cmd.ind generalizing parents added with
  | h d s ch ih =>
    have hnd := hu [] _ rfl
    have hk : ∀ x ∈ (Cmd.node d s ch).children, UniqueNames x := by
      intro x hx a y hy
      obtain ⟨i, hi, he⟩ := List.getElem_of_mem hx
      refine hu (i :: a) y ?_
      simp only [Cmd.at]
      simp only [Cmd.children] at hi he
      rw [List.getElem?_eq_getElem hi, he]
      exact hy
    clear hu
    simp only [Cmd.children] at hnd hk
    have hd : (Cmd.node d s ch).data = d := rfl
    rw [hd] at hn
    simp only [pathsOf, List.map_cons, OrderedAfter]
    refine ⟨fun h => hn _ h (List.prefix_refl _), fun hl => ?_, ?_⟩
    · rcases hp with rfl | hp
      · simp at hl
      · simpa using hp
    · have hadd : ∀ q ∈ added ++ [parents ++ [d.prog]], ∀ c ∈ ch, ¬ (parents ++ [d.prog]) ++ [c.data.prog] <+: q := by
        intro q hq c _ hpre
        rcases List.mem_append.1 hq with hq | hq
        · exact hn q hq ((List.prefix_append _ _).trans hpre)
        · simp only [List.mem_singleton] at hq
          subst hq
          have := hpre.length_le
          simp at this
      have hin : parents ++ [d.prog] ∈ added ++ [parents ++ [d.prog]] := by simp
      revert hadd hin
      generalize added ++ [parents ++ [d.prog]] = added'
      generalize parents ++ [d.prog] = ps
      intro hadd hin
      clear hn hp hd s
      induction ch generalizing added' with
      | nil => simp [pathsOfList, OrderedAfter]
      | cons c cs ihl =>
        simp only [List.map_cons, List.nodup_cons] at hnd
        simp only [pathsOfList, List.map_append, orderedAfter_append]
        refine ⟨ih c (by simp) (hk c (by simp)) ps added' (.inr hin) (fun q hq => hadd q hq c (by simp)), ?_⟩
        refine ihl (fun x hx => ih x (by simp [hx])) hnd.2 (fun x hx => hk x (by simp [hx])) _ ?_
          (List.mem_append.2 (.inl hin))
        intro q hq c' hc' hpre
        rcases List.mem_append.1 hq with hq | hq
        · exact hadd q hq c' (by simp [hc']) hpre
        · obtain ⟨e, he, rfl⟩ := List.mem_map.1 hq
          have h1 := pathsOf_prefix c ps e he
          have h2 := List.prefix_of_prefix_length_le hpre h1 (by simp)
          have h3 := h2.eq_of_length (by simp)
          have h4 := List.append_cancel_left h3
          simp only [List.cons.injEq, and_true] at h4
          exact hnd.1 (List.mem_map.2 ⟨c', hc', h4⟩)

/-- Repeatable positionals come last, and not before subcommands. -/
structure RepeatAccepted (x : Cmd) : Prop where
  last : ∀ p ∈ x.data.positionals, ∀ q ∈ x.data.positionals, p.repeatable = true → q.number ≤ p.number
  subcommands : x.children ≠ [] → ∀ p ∈ x.data.positionals, p.repeatable = false

theorem at_dropLast (c : Cmd) (js : List Nat) (i : Nat) (y : Cmd) (h : c.at (js ++ [i]) = some y) :
    ∃ z, c.at js = some z := by
  induction js generalizing c with
  | nil => exact ⟨c, by simp [Cmd.at]⟩
  | cons k ks ihk =>
    cases c with
    | node dd s ch =>
      simp only [List.cons_append, Cmd.at] at h ⊢
      cases hk : ch[k]? with
      | none => simp [hk] at h
      | some c' =>
        simp only [hk] at h
        exact ihk c' h

theorem hasChild_iff (c : Cmd) (hu : UniqueNames c) (a : List Nat) (x : Cmd) (p : List Str) (hx : c.at a = some x)
    (hp : c.namesAt a = some p) : (∃ sub, p ++ [sub] ∈ (pathsOf [] c).map (·.1)) ↔ x.children ≠ [] := by
  constructor
  · rintro ⟨sub, hm⟩
    obtain ⟨⟨q, d⟩, hm, he⟩ := List.mem_map.1 hm
    simp only at he
    subst he
    obtain ⟨b, y, q, h1, h2, h3, h4⟩ := (mem_pathsOf c [] _ _).1 hm
    simp only [List.nil_append] at h3
    obtain ⟨ns, g1, g2⟩ := namesAt_isSome c b y h1
    rw [h2] at g1
    cases g1
    have hbne : b ≠ [] := by
      rintro rfl
      rw [← h3] at g2
      obtain ⟨ns, g1, g3⟩ := namesAt_isSome c a x hx
      rw [hp] at g1
      cases g1
      simp at g2
      simp [g2] at g3
    obtain ⟨b', i, rfl⟩ : ∃ b' i, b = b' ++ [i] :=
      ⟨b.dropLast, b.getLast hbne, (List.dropLast_concat_getLast hbne).symm⟩
    have hz := at_dropLast c b' i y h1
    obtain ⟨z, hz⟩ := hz
    obtain ⟨m, hm1, _⟩ := namesAt_isSome c b' z hz
    have hy := at_append c b' i z hz
    rw [h1] at hy
    have := namesAt_append c b' i z y m hz hy.symm hm1
    rw [h2, Option.some.injEq, ← h3] at this
    have hm2 : p = m := by
      have := congrArg List.dropLast this
      simpa using this
    have hab : a = b' := C19_paths_distinct c hu a b' x z hx hz (by rw [hp, hm1, hm2])
    subst hab
    rw [hx] at hz
    cases hz
    intro h0
    rw [h0] at hy
    simp at hy
  · intro hne
    cases hch : x.children with
    | nil => exact absurd hch hne
    | cons y ys =>
      have hy : x.children[0]? = some y := by rw [hch]; rfl
      have h1 := at_append c a 0 x hx
      rw [hy] at h1
      have h2 := namesAt_append c a 0 x y p hx hy hp
      exact ⟨y.data.prog, List.mem_map.2 ⟨(p ++ [y.data.prog], y.data),
        (mem_pathsOf c [] _ _).2 ⟨a ++ [0], y, _, h1, h2, rfl, rfl⟩, rfl⟩⟩

theorem repeatOk_iff (c : Cmd) (hu : UniqueNames c) (a : List Nat) (x : Cmd) (p : List Str) (hx : c.at a = some x)
    (hp : c.namesAt a = some p) :
    RepeatOk ((pathsOf [] c).map (·.1)) p (docOf (p, x.data)) ↔ RepeatAccepted x := by
  unfold RepeatOk
  rw [hasChild_iff c hu a x p hx hp]
  have k5 : getKey (docOf (p, x.data)) (S "positionals") =
    some (.list (x.data.positionals.map (fun p => .dict (positionalEntries p)))) := rfl
  have hnum : ∀ (q : Pos) (n : Int), Doc.NumberOf (.dict (positionalEntries q)) n ↔ n = q.number := by
    intro q n
    constructor
    · rintro ⟨d, v, h1, h2, h3⟩
      cases h1
      have : getKey (positionalEntries q) (S "number") = some (.int q.number) := rfl
      rw [this] at h2
      cases h2
      cases h3
      rfl
    · rintro rfl
      exact ⟨_, _, rfl, rfl, .int _⟩
  have hrep : ∀ q : Pos, Doc.Repeats (.dict (positionalEntries q)) ↔ q.repeatable = true := by
    intro q
    constructor
    · rintro ⟨d, h1, h2⟩
      cases h1
      have : getKey (positionalEntries q) (S "repeatable") = some (.bool q.repeatable) := rfl
      rw [this] at h2
      simpa using h2
    · intro h
      refine ⟨_, rfl, ?_⟩
      have : getKey (positionalEntries q) (S "repeatable") = some (.bool q.repeatable) := rfl
      rw [this, h]
  simp only [k5, Option.some.injEq, Val.list.injEq, forall_eq', List.forall_mem_map, hnum, hrep]
  constructor
  · rintro ⟨h1, h2⟩
    refine ⟨fun p hp q hq hr => ?_, fun hc p hp => ?_⟩
    · have := h1 p hp q hq _ _ hr rfl rfl
      omega
    · simpa using h2 hc p hp
  · rintro ⟨h1, h2⟩
    refine ⟨?_, fun hc p hp => by simp [h2 hc p hp]⟩
    rintro p hp q hq n m hr rfl rfl
    have := h1 p hp q hq hr
    omega

/-- The words of every path are without blanks, and the path is a valid name. -/
def PathsValid (c : Cmd) : Prop := ∀ a p, c.namesAt a = some p →
  validProg (joinWith [' '] p) = true ∧ ∀ n ∈ p, ' ' ∉ n

theorem haveDefs_pathsOf (l : List (List Str × CmdData))
    (h : ∀ e ∈ l, e.1 ≠ [] ∧ validProg (joinWith [' '] e.1) = true ∧ ∀ n ∈ e.1, ' ' ∉ n) :
    HaveDefs (l.map (fun e => .dict (docOf e))) (l.map (fun e => (e.1, docOf e))) := by
  induction l with
  | nil => exact .nil
  | cons e l ih =>
    obtain ⟨h1, h2, h3⟩ := h e (by simp)
    have := HaveDefs.cons (docOf e) (joinWith [' '] e.1) _ _ rfl h2 (ih (fun x hx => h x (by simp [hx])))
    rw [splitOn_join _ _ h1 h3] at this
    simpa using this

theorem haveDefs_inj {vs : List Val} {a b : List (List Str × List (Key × Val))} (ha : HaveDefs vs a)
    (hb : HaveDefs vs b) : a = b := by
  induction ha generalizing b with
  | nil => cases hb; rfl
  | cons d s vs ps hk hv _ ih =>
    cases hb with
    | cons _ s' _ ps' hk' hv' h' =>
      rw [hk] at hk'
      cases hk'
      rw [ih h']

/-- What the second validation accepts. -/
theorem validateCommandlines_iff (env : ValEnv) (c : Cmd) (hu : UniqueNames c) (hv : PathsValid c) :
    validateCommandlines env c = .ok () ↔ ∀ a x p, c.at a = some x → c.namesAt a = some p → a.length ≤ 1 →
      CmdAccepted env (joinWith [' '] p) x.data ∧ RepeatAccepted x := by
  unfold validateCommandlines
  rw [definitionsOf_eq, validate_iff]
  have hall : ∀ e ∈ pathsOf [] c, ∃ a x, c.at a = some x ∧ c.namesAt a = some e.1 ∧ x.data = e.2 := by
    rintro ⟨p, d⟩ he
    obtain ⟨a, x, q, h1, h2, h3, h4⟩ := (mem_pathsOf c [] _ _).1 he
    rw [List.nil_append] at h3
    exact ⟨a, x, h1, by rw [h2, h3], h4⟩
  have hdefs : HaveDefs ((pathsOf [] c).map (fun e => .dict (docOf e))) ((pathsOf [] c).map (fun e => (e.1, docOf e))) := by
    apply haveDefs_pathsOf
    intro e he
    obtain ⟨a, x, h1, h2, h3⟩ := hall e he
    obtain ⟨g1, g2⟩ := hv a _ h2
    refine ⟨fun h0 => ?_, g1, g2⟩
    obtain ⟨t, ht⟩ := namesAt_cons c a _ h2
    rw [h0] at ht
    cases ht
  have hfst : ((pathsOf [] c).map (fun e => (e.1, docOf e))).map (·.1) = (pathsOf [] c).map (·.1) := by simp
  have hone : Doc.OneProgram ((pathsOf [] c).map (·.1)) := by
    refine ⟨c.data.prog, ?_, ?_⟩
    · cases c with
      | node d s ch => simp [pathsOf, Cmd.data]
    · intro p hp
      obtain ⟨e, he, rfl⟩ := List.mem_map.1 hp
      obtain ⟨a, x, h1, h2, h3⟩ := hall e he
      exact namesAt_head c a _ h2
  constructor
  · rintro ⟨qs, h1, h2, h3, h4⟩ a x p hx hp hl
    have e := haveDefs_inj h1 hdefs
    subst e
    have hm : (p, x.data) ∈ pathsOf [] c := (mem_pathsOf c [] _ _).2 ⟨a, x, p, hx, hp, rfl, rfl⟩
    obtain ⟨ns, g1, g2⟩ := namesAt_isSome c a x hx
    rw [hp] at g1
    cases g1
    obtain ⟨k1, k2⟩ := h4 p (docOf (p, x.data)) (List.mem_map.2 ⟨_, hm, rfl⟩) (by omega)
    rw [hfst] at k2
    exact ⟨(commandEntries_iff env _ _).1 k1, (repeatOk_iff c hu a x p hx hp).1 k2⟩
  · intro h
    refine ⟨_, hdefs, ?_, ?_, ?_⟩
    · rw [hfst]
      exact ordered_pathsOf c hu [] [] (.inl rfl) (by simp)
    · rw [hfst]; exact hone
    · intro p d hm hl
      obtain ⟨⟨p', d'⟩, he, heq⟩ := List.mem_map.1 hm
      simp only [Prod.mk.injEq] at heq
      obtain ⟨rfl, rfl⟩ := heq
      obtain ⟨a, x, h1, h2, h3⟩ := hall _ he
      simp only at h2 h3
      subst h3
      obtain ⟨ns, g1, g2⟩ := namesAt_isSome c a x h1
      rw [h2] at g1
      cases g1
      obtain ⟨k1, k2⟩ := h a x _ h1 h2 (by omega)
      rw [hfst]
      exact ⟨(commandEntries_iff env _ _).2 k1, (repeatOk_iff c hu a x _ h1 h2).2 k2⟩

end CC
