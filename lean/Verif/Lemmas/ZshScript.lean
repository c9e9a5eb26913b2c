import Verif.Spec.ZshScriptSpec
import Verif.Model.ZshScript
import Verif.Props.When
import Verif.Props.ZshQuery
import Verif.Props.ZshUtils
import Verif.Props.FishScript
/-!
# Lemmas about the completion functions of a Zsh script
-/

namespace CC

open ShellGrammar WhenSpec ZshArgs

/-! ## Options -/

/-- Who the entries of the getter's dictionary belong to. -/
theorem getterRun_mem (onlyArgs : Bool) (cmds : List Cmd)
    (hd : cmds.Pairwise (fun a b => b.eqv a = false ∧ a.eqv b = false)) (x : Cmd) (o : Opt) :
    (∃ e ∈ getterRun onlyArgs cmds, e.2.1 = x ∧ o ∈ e.2.2) ↔
      ∃ pre post, cmds = pre ++ x :: post ∧ o ∈ eligible onlyArgs x ∧ ∀ y ∈ pre, ∀ q ∈ eligible onlyArgs y, q.key ≠ o.key := by
  rw [getterRun_eq]
  generalize hg : groupBy (fun p : Cmd × Opt => p.2.key) (pairsOf onlyArgs cmds) = g
  have hgrp : ∀ e ∈ g, e.2 = (pairsOf onlyArgs cmds).filter (fun p => decide (p.2.key = e.1)) := by
    intro e he; subst hg; exact C40_group_by_groups _ _ e.1 e.2 he
  have hkeys := C40_group_by_keys (fun p : Cmd × Opt => p.2.key) (pairsOf onlyArgs cmds)
  rw [hg] at hkeys
  have hne := groupBy_nonempty (fun p : Cmd × Opt => p.2.key) (pairsOf onlyArgs cmds)
  rw [hg] at hne
  have hval : ∀ e ∈ g, ∃ pre post, cmds = pre ++ (entryOf e).2.1 :: post ∧
      (∀ c' ∈ pre, ∀ o' ∈ eligible onlyArgs c', o'.key ≠ e.1) ∧
      (entryOf e).2.2 = (eligible onlyArgs (entryOf e).2.1).filter (fun o => decide (o.key = e.1)) ∧
      ∃ o' ∈ eligible onlyArgs (entryOf e).2.1, o'.key = e.1 := by
    intro e he
    obtain ⟨k', ps⟩ := e
    have h1 := hgrp _ he
    have h2 := hne _ he
    simp only at h1 h2
    cases ps with
    | nil => exact absurd rfl h2
    | cons p r =>
      obtain ⟨x, o⟩ := p
      obtain ⟨pre, post, e1, e2, e3⟩ := nearest_filter onlyArgs k' cmds hd x o r h1.symm
      refine ⟨pre, post, e1, e2, e3, ?_⟩
      have hmem : o ∈ (((x, o) :: r).filter (fun p => x.eqv p.1)).map (·.2) := by
        rw [List.mem_map]
        exact ⟨(x, o), by simp [Cmd.eqv_refl], rfl⟩
      rw [e3, List.mem_filter] at hmem
      exact ⟨o, hmem.1, by simpa using hmem.2⟩
  constructor
  · rintro ⟨e', he', rfl, ho⟩
    obtain ⟨e, he, rfl⟩ := List.mem_map.mp he'
    obtain ⟨pre, post, h1, h2, h3, -⟩ := hval e he
    rw [h3, List.mem_filter] at ho
    have hk : o.key = e.1 := by simpa using ho.2
    exact ⟨pre, post, h1, ho.1, fun y hy q hq => by rw [hk]; exact h2 y hy q hq⟩
  · rintro ⟨pre, post, h1, ho, h2⟩
    have hk : o.key ∈ g.map Prod.fst := by
      rw [hkeys.2.1]
      refine ⟨(x, o), ?_, rfl⟩
      simp only [pairsOf, List.mem_flatMap, List.mem_map]
      exact ⟨x, by rw [h1]; simp, o, ho, rfl⟩
    obtain ⟨e, he, hek⟩ := List.mem_map.mp hk
    obtain ⟨pre', post', h1', h2', h3', o', ho', hok⟩ := hval e he
    have hx : (entryOf e).2.1 = x := by
      rw [h1] at h1'
      clear h1 h3' hval
      rw [hek] at h2' hok
      induction pre generalizing pre' with
      | nil =>
        cases pre' with
        | nil => simp at h1'; exact h1'.1.symm
        | cons y ys =>
          simp only [List.nil_append, List.cons_append, List.cons.injEq] at h1'
          exact absurd rfl (h2' y (by simp) o (by rw [← h1'.1]; exact ho))
      | cons z zs ih =>
        cases pre' with
        | nil =>
          simp only [List.nil_append, List.cons_append, List.cons.injEq] at h1'
          exact absurd hok (h2 z (by simp) o' (by rw [h1'.1]; exact ho'))
        | cons y ys =>
          simp only [List.cons_append, List.cons.injEq] at h1'
          exact ih (fun a ha => h2 a (by simp [ha])) ys h1'.2 (fun a ha => h2' a (by simp [ha]))
    refine ⟨_, List.mem_map.mpr ⟨e, he, rfl⟩, hx, ?_⟩
    rw [h3', List.mem_filter, hx]
    exact ⟨ho, by simp [hek]⟩

theorem eligible_all (x : Cmd) : eligible false x = x.data.options := by simp [eligible]

theorem nearest_reverse (cmds : List Cmd) (x : Cmd) (o : Opt) :
    Nearest cmds x o ↔ ∃ pre post, cmds.reverse = pre ++ x :: post ∧ o ∈ eligible false x ∧
      ∀ y ∈ pre, ∀ q ∈ eligible false y, q.key ≠ o.key := by
  simp only [eligible_all]
  constructor
  · rintro ⟨l1, l2, rfl, ho, h⟩
    exact ⟨l2.reverse, l1.reverse, by simp, ho, by simpa using h⟩
  · rintro ⟨pre, post, h1, ho, h⟩
    refine ⟨post.reverse, pre.reverse, ?_, ho, by simpa using h⟩
    have := congrArg List.reverse h1
    simpa using this

theorem scope_distinct {root : Cmd} {parents : List Cmd} {c : Cmd} (hat : At root parents c) :
    (zshScope parents c).reverse.Pairwise (fun a b => b.eqv a = false ∧ a.eqv b = false) := by
  unfold zshScope
  split
  · simp
  · have := at_chain_distinct hat
    simpa [searched] using this

/-- The options that a function passes to `_arguments`. -/
theorem mem_zshOptions {root : Cmd} {parents : List Cmd} {c : Cmd} (hat : At root parents c) (x : Cmd) (o : Opt) :
    (x, o) ∈ zshOptions parents c ↔ Nearest (zshScope parents c) x o := by
  rw [nearest_reverse, ← getterRun_mem false _ (scope_distinct hat)]
  unfold zshOptions
  simp only [List.mem_flatMap, List.mem_map, Prod.mk.injEq]
  show (∃ e ∈ getterRun false (zshScope parents c).reverse, _) ↔ _
  constructor
  · rintro ⟨e, he, o', ho, rfl, rfl⟩; exact ⟨e, he, rfl, ho⟩
  · rintro ⟨e, he, rfl, ho⟩; exact ⟨e, he, o, ho, rfl, rfl⟩

/-- The options in the table of a function. -/
theorem mem_table {root : Cmd} {parents : List Cmd} {c : Cmd} (hat : At root parents c) (s : Str) (k : ArgKind) :
    (s, k) ∈ tableOf (getOptions parents c true false) ↔ ∃ x o, Nearest (parents ++ [c]) x o ∧ s ∈ o.strings ∧ o.kind = k := by
  unfold tableOf
  simp only [List.mem_flatMap, List.mem_map, Prod.mk.injEq]
  constructor
  · rintro ⟨o, ho, s', hs, rfl, hk⟩
    obtain ⟨pre, x, post, h1, h2, h3⟩ := (C16_mem root parents c hat true false o).mp ho
    refine ⟨x, o, (nearest_reverse _ _ _).mpr ⟨pre, post, ?_, h2, h3⟩, hs, hk⟩
    rw [← h1]; simp [searched]
  · rintro ⟨x, o, hn, hs, hk⟩
    obtain ⟨pre, post, h1, h2, h3⟩ := (nearest_reverse _ _ _).mp hn
    refine ⟨o, (C16_mem root parents c hat true false o).mpr ⟨pre, x, post, ?_, h2, h3⟩, s, hs, rfl, hk⟩
    rw [← h1]; simp [searched]

/-! ## The parser -/

theorem loop_positionals (long short old : Bool) (a : ZshArrays) (q : Str → Str) (ws : List Str) :
    ∀ p k, p.positionals <+: (zshLoop long short old a q p k ws).positionals := by
  induction ws with
  | nil => intro p k; simp [zshLoop]
  | cons w ws ih =>
    intro p k
    cases k with
    | true => rw [zshLoop]; exact ih p false
    | false =>
      rw [zshLoop]
      split
      · exact List.prefix_append _ _
      · have h1 : p.positionals <+: (p.apply (zshWord long short old a (q w) (ws.head?.map q))).positionals :=
          List.prefix_append p.positionals _
        exact h1.trans (ih _ _)

theorem table_ok {root : Cmd} (hp : PlainTree root) {kind : List Cmd → Cmd → Str → Option ArgKind} (hk : TellsKinds root kind)
    {parents : List Cmd} {c : Cmd} (hat : At root parents c) :
    TableOk (tableOf (getOptions parents c true false)) ∧ kindIn (tableOf (getOptions parents c true false)) = kind parents c := by
  have ht : TableOk (tableOf (getOptions parents c true false)) := by
    refine ⟨fun e he => treeOption_plain hp (table_tree hat he), ?_⟩
    intro s k k' h1 h2
    have h1 := (hk parents c hat s k).mpr ((mem_table hat s k).mp h1)
    have h2 := (hk parents c hat s k').mpr ((mem_table hat s k').mp h2)
    rw [h1] at h2
    simpa using h2
  refine ⟨ht, ?_⟩
  funext s
  have : ∀ k, kindIn (tableOf (getOptions parents c true false)) s = some k ↔ kind parents c s = some k := by
    intro k
    rw [kindIn_iff ht, mem_table hat, hk parents c hat]
  cases h : kind parents c s with
  | some k => exact (this k).mpr h
  | none =>
    cases h' : kindIn (tableOf (getOptions parents c true false)) s with
    | none => rfl
    | some k => rw [(this k).mp h'] at h; cases h

theorem zshParts_ok {root : Cmd} (hp : PlainTree root) {kind : List Cmd → Cmd → Str → Option ArgKind} (hk : TellsKinds root kind)
    {parents : List Cmd} {c : Cmd} (hat : At root parents c) :
    PartsOk (definedOptionTypes root).long (definedOptionTypes root).short (definedOptionTypes root).old (kind parents c) ∧
      NoDashes (kind parents c) := by
  obtain ⟨ht, he⟩ := table_ok hp hk hat
  rw [← he]
  refine ⟨fun s k h => types_enabled hp (table_tree hat ((kindIn_iff ht _ _).mp h)), ?_⟩
  unfold NoDashes
  cases h : kindIn (tableOf (getOptions parents c true false)) ['-', '-'] with
  | none => rfl
  | some k => exact absurd rfl (ht.plain _ ((kindIn_iff ht _ _).mp h)).2.1

/-- What the helper records for words that are valid for the command. -/
theorem query_all {root : Cmd} (hp : PlainTree root) {kind : List Cmd → Cmd → Str → Option ArgKind} (hk : TellsKinds root kind)
    {parents : List Cmd} {c : Cmd} (hat : At root parents c) {its : List Item} {e : Ending}
    (hi : ∀ it ∈ its, it.Valid (kind parents c)) (hv : e.Valid (kind parents c)) {q : Str → Str} {raws : List Str}
    (hraw : raws.map q = its.flatMap Item.words ++ e.words)
    (hq : ∀ pre w post, raws = pre ++ w :: post → q w = ['-', '-'] → post.map q = post) :
    let r := zshQueryOf root (queryOptionStrings (getOptions parents c true false)) q raws
    r.having = (lineOf its e).given ∧ r.positionals = (lineOf its e).positionals := by
  obtain ⟨ht, he⟩ := table_ok hp hk hat
  rw [← he] at hi hv
  have := C57_parse_partial (definedOptionTypes root).long (definedOptionTypes root).short (definedOptionTypes root).old
    (getOptions parents c true false) ht
    (fun s k h => types_enabled hp (table_tree hat h)) its e hi hv q raws hraw hq
  simp only [zshQueryOf]
  rw [this]
  exact ⟨rfl, rfl⟩

/-- What the helper records first, if the words before some point are valid for the command. -/
theorem query_front {root : Cmd} (hp : PlainTree root) {kind : List Cmd → Cmd → Str → Option ArgKind} (hk : TellsKinds root kind)
    {parents : List Cmd} {c : Cmd} (hat : At root parents c) {front : List Item} {rest : List Str}
    (hi : ∀ it ∈ front, it.Valid (kind parents c)) {q : Str → Str} {raws : List Str}
    (hraw : raws.map q = front.flatMap Item.words ++ rest)
    (hq : ∀ pre w post, raws = pre ++ w :: post → q w = ['-', '-'] → post.map q = post) :
    front.flatMap Item.positionals <+:
      (zshQueryOf root (queryOptionStrings (getOptions parents c true false)) q raws).positionals := by
  obtain ⟨ht, he⟩ := table_ok hp hk hat
  obtain ⟨h1, h2⟩ := zshParts_ok hp hk hat
  rw [← he] at hi h1 h2
  have ha := zshArrays_ok _ _ _ _ ht h1
  simp only [zshQueryOf, zshQueryInit]
  rw [zshLoop_quotes _ _ _ _ _ _ _ _ hq, hraw, zshLoop_items ha h1 h2 _ hi]
  have := loop_positionals (definedOptionTypes root).long (definedOptionTypes root).short (definedOptionTypes root).old
    (zshArrays (definedOptionTypes root).long (definedOptionTypes root).short (definedOptionTypes root).old
      (queryOptionStrings (getOptions parents c true false))) id rest
    ⟨[] ++ (front.flatMap Item.options).map queryRecord, [] ++ front.flatMap Item.positionals, []⟩ false
  simpa using this

/-! ## The specs of a function -/

/-- Where a spec comes from. -/
inductive ZshFrom (act : ZshActions) (parents : List Cmd) (c : Cmd) : ZshArg → Prop
  | option (x : Cmd) (o : Opt) (a : ZshArg) : Nearest (zshScope parents c) x o → zshOptionArg act (x, o) = .ok a →
      ZshFrom act parents c a
  | positional (qs : List Cmd) (x : Cmd) (rest : List Cmd) (p : Pos) (a : ZshArg) : parents ++ [c] = qs ++ x :: rest →
      p ∈ x.data.positionals → zshPositionalArg act qs x p = .ok a → ZshFrom act parents c a
  | subcommands (qs : List Cmd) (x : Cmd) (rest : List Cmd) (n k : Nat) (a : ZshArg) : parents ++ [c] = qs ++ x :: rest →
      x.sub = some n → zshSubArg act k qs x n = .ok a → ZshFrom act parents c a

theorem bind_ok {α β : Type} {x : Except Err α} {f : α → Except Err β} {b : β} (h : (x >>= f) = .ok b) :
    ∃ a, x = .ok a ∧ f a = .ok b := by
  cases x with
  | error e => cases h
  | ok a => exact ⟨a, rfl, h⟩

theorem mem_normalArgs (act : ZshActions) : ∀ (cs : List Cmd) (k : Nat) (qs : List Cmd) (ns : List ZshArg),
    zshNormalArgs act k qs cs = .ok ns →
    (∀ a, a ∈ ns ↔ ∃ pre x post, cs = pre ++ x :: post ∧
      ((∃ p ∈ x.data.positionals, zshPositionalArg act (qs ++ pre) x p = .ok a) ∨
        ∃ n j, j = k + (pre.filter (fun y => y.sub.isSome)).length + 1 ∧ x.sub = some n ∧ zshSubArg act j (qs ++ pre) x n = .ok a)) ∧
    (∀ pre x post, cs = pre ++ x :: post → (∀ p ∈ x.data.positionals, ∃ a, zshPositionalArg act (qs ++ pre) x p = .ok a) ∧
      ∀ n, x.sub = some n → ∃ a, zshSubArg act (k + (pre.filter (fun y => y.sub.isSome)).length + 1) (qs ++ pre) x n = .ok a) := by
  intro cs
  induction cs with
  | nil =>
    intro k qs ns h
    simp only [zshNormalArgs, Except.ok.injEq] at h
    subst h
    refine ⟨fun a => ?_, fun pre x post h => by simp at h⟩
    simp
  | cons x rest ih =>
    intro k qs ns h
    rw [zshNormalArgs] at h
    obtain ⟨ps, hps, h⟩ := bind_ok h
    obtain ⟨a1, a2, -⟩ := mapE_mem hps
    have hhead : ∀ a, a ∈ ps ↔ ∃ p ∈ x.data.positionals, zshPositionalArg act qs x p = .ok a := by
      intro a
      constructor
      · exact a2 a
      · rintro ⟨p, hp, h⟩
        obtain ⟨y, hy, he⟩ := a1 p hp
        rw [h] at he; cases he; exact hy
    cases hs : x.sub with
    | none =>
      rw [hs] at h
      obtain ⟨r, hr, h⟩ := bind_ok h
      simp only [Except.ok.injEq] at h
      obtain ⟨i1, i2⟩ := ih k (qs ++ [x]) r hr
      subst h
      constructor
      · intro a
        rw [List.mem_append, hhead, i1]
        constructor
        · rintro (⟨p, hp, h⟩ | ⟨pre, y, post, rfl, h'⟩)
          · exact ⟨[], x, rest, rfl, Or.inl ⟨p, hp, by simpa using h⟩⟩
          · exact ⟨x :: pre, y, post, rfl, by simpa [hs] using h'⟩
        · rintro ⟨pre, y, post, he, h'⟩
          cases pre with
          | nil =>
            simp only [List.nil_append, List.cons.injEq] at he
            obtain ⟨rfl, rfl⟩ := he
            rcases h' with h | ⟨n, j, -, hn, -⟩
            · left; simpa using h
            · rw [hs] at hn; cases hn
          | cons z pre =>
            simp only [List.cons_append, List.cons.injEq] at he
            obtain ⟨rfl, rfl⟩ := he
            right
            exact ⟨pre, y, post, rfl, by simpa [hs] using h'⟩
      · intro pre y post he
        cases pre with
        | nil =>
          simp only [List.nil_append, List.cons.injEq] at he
          obtain ⟨rfl, rfl⟩ := he
          refine ⟨fun p hp => ?_, fun n hn => by rw [hs] at hn; cases hn⟩
          obtain ⟨a, -, h⟩ := a1 p hp
          exact ⟨a, by simpa using h⟩
        | cons z pre =>
          simp only [List.cons_append, List.cons.injEq] at he
          obtain ⟨rfl, rfl⟩ := he
          have := i2 pre y post rfl
          simpa [hs] using this
    | some m =>
      rw [hs] at h
      obtain ⟨sa, hsa, h⟩ := bind_ok h
      obtain ⟨r, hr, h⟩ := bind_ok h
      simp only [Except.ok.injEq] at h
      obtain ⟨i1, i2⟩ := ih (k + 1) (qs ++ [x]) r hr
      subst h
      have hj : ∀ l : Nat, k + 1 + l + 1 = k + (l + 1) + 1 := by omega
      constructor
      · intro a
        rw [List.mem_append, List.mem_cons, hhead, i1]
        constructor
        · rintro (⟨p, hp, h⟩ | rfl | ⟨pre, y, post, rfl, h'⟩)
          · exact ⟨[], x, rest, rfl, Or.inl ⟨p, hp, by simpa using h⟩⟩
          · exact ⟨[], x, rest, rfl, Or.inr ⟨m, k + 1, by simp, hs, by simpa using hsa⟩⟩
          · refine ⟨x :: pre, y, post, rfl, ?_⟩
            simpa [hs, hj] using h'
        · rintro ⟨pre, y, post, he, h'⟩
          cases pre with
          | nil =>
            simp only [List.nil_append, List.cons.injEq] at he
            obtain ⟨rfl, rfl⟩ := he
            rcases h' with h | ⟨n, j, hjk, hn, h⟩
            · left; simpa using h
            · right; left
              rw [hs] at hn; cases hn
              simp only [List.filter_nil, List.length_nil, Nat.add_zero] at hjk
              subst hjk
              simp only [List.append_nil] at h
              rw [hsa] at h; cases h; rfl
          | cons z pre =>
            simp only [List.cons_append, List.cons.injEq] at he
            obtain ⟨rfl, rfl⟩ := he
            right; right
            refine ⟨pre, y, post, rfl, ?_⟩
            simpa [hs, hj] using h'
      · intro pre y post he
        cases pre with
        | nil =>
          simp only [List.nil_append, List.cons.injEq] at he
          obtain ⟨rfl, rfl⟩ := he
          refine ⟨fun p hp => ?_, fun n hn => ?_⟩
          · obtain ⟨a, -, h⟩ := a1 p hp
            exact ⟨a, by simpa using h⟩
          · rw [hs] at hn; cases hn
            exact ⟨sa, by simpa using hsa⟩
        | cons z pre =>
          simp only [List.cons_append, List.cons.injEq] at he
          obtain ⟨rfl, rfl⟩ := he
          have := i2 pre y post rfl
          simpa [hs, hj] using this

/-- A function without a wrapped command. -/
def NoWraps (c : Cmd) : Prop := ∀ w, c.data.wraps = some w → w = []

theorem mem_zshArgs {root : Cmd} {parents : List Cmd} {c : Cmd} (hat : At root parents c) (hwr : NoWraps c) {act : ZshActions}
    {as : List ZshArg} (h : zshArgs act parents c = .ok as) :
    (∀ a ∈ as, ZshFrom act parents c a) ∧
    (∀ x o, Nearest (zshScope parents c) x o → ∃ a ∈ as, zshOptionArg act (x, o) = .ok a) ∧
    (∀ qs x rest, parents ++ [c] = qs ++ x :: rest → (∀ p ∈ x.data.positionals, ∃ a ∈ as, zshPositionalArg act qs x p = .ok a) ∧
      ∀ n, x.sub = some n → ∃ a ∈ as, ∃ k, zshSubArg act k qs x n = .ok a) := by
  unfold zshArgs at h
  obtain ⟨os, hos, h⟩ := bind_ok h
  obtain ⟨ns, hns, h⟩ := bind_ok h
  have h : os ++ ns = as := by
    cases hc : c.data.wraps with
    | none => rw [hc] at h; simpa using h
    | some w => rw [hc, hwr w hc] at h; simpa using h
  subst h
  obtain ⟨b1, b2, -⟩ := mapE_mem hos
  obtain ⟨i1, i2⟩ := mem_normalArgs act _ _ _ _ hns
  simp only [List.nil_append] at i1 i2
  refine ⟨?_, ?_, ?_⟩
  · intro a ha
    rcases List.mem_append.mp ha with ha | ha
    · obtain ⟨⟨x, o⟩, hx, he⟩ := b2 a ha
      exact .option x o a ((mem_zshOptions hat x o).mp hx) he
    · obtain ⟨pre, x, post, h1, ⟨p, hp, h2⟩ | ⟨n, j, -, hn, h2⟩⟩ := (i1 a).mp ha
      · exact .positional pre x post p a h1 hp h2
      · exact .subcommands pre x post n j a h1 hn h2
  · intro x o hn
    obtain ⟨a, ha, he⟩ := b1 (x, o) ((mem_zshOptions hat x o).mpr hn)
    exact ⟨a, List.mem_append_left _ ha, he⟩
  · intro qs x rest he
    obtain ⟨j1, j2⟩ := i2 qs x rest he
    refine ⟨fun p hp => ?_, fun n hn => ?_⟩
    · obtain ⟨a, ha⟩ := j1 p hp
      exact ⟨a, List.mem_append_right _ ((i1 a).mpr ⟨qs, x, rest, he, Or.inl ⟨p, hp, ha⟩⟩), ha⟩
    · obtain ⟨a, ha⟩ := j2 n hn
      exact ⟨a, List.mem_append_right _ ((i1 a).mpr ⟨qs, x, rest, he, Or.inr ⟨n, _, rfl, hn, ha⟩⟩), _, ha⟩

theorem zshFunction_ok {isRegex : Str → Bool} {act : ZshActions} {parents : List Cmd} {c : Cmd} {f : ZshFunction}
    (h : zshFunction isRegex act parents c = .ok f) :
    ∃ as, zshArgs act parents c = .ok as ∧
      (∀ x ∈ f.args, x.1 ∈ as ∧ zshCode isRegex x.1 = .ok x.2) ∧
      (∀ a ∈ as, ∃ code, (a, code) ∈ f.args ∧ zshCode isRegex a = .ok code) ∧
      f.init = if zshQueryUsed c f.args then some (queryOptionStrings (getOptions parents c true false)) else none := by
  unfold zshFunction at h
  obtain ⟨as, has, h⟩ := bind_ok h
  obtain ⟨args, hargs, h⟩ := bind_ok h
  simp only [Except.ok.injEq] at h
  subst h
  obtain ⟨a1, a2, -⟩ := mapE_mem hargs
  have key : ∀ a y, (do let code ← zshCode isRegex a; .ok (a, code) : Except Err _) = .ok y → y.1 = a ∧ zshCode isRegex a = .ok y.2 := by
    intro a y h
    obtain ⟨code, h1, h2⟩ := bind_ok h
    simp only [Except.ok.injEq] at h2
    subst h2
    exact ⟨rfl, h1⟩
  refine ⟨as, has, ?_, ?_, rfl⟩
  · intro x hx
    obtain ⟨a, ha, he⟩ := a2 x hx
    obtain ⟨h1, h2⟩ := key a x he
    rw [h1]
    exact ⟨ha, h2⟩
  · intro a ha
    obtain ⟨y, hy, he⟩ := a1 a ha
    obtain ⟨h1, h2⟩ := key a y he
    exact ⟨y.2, by rw [← h1]; exact hy, h2⟩

/-! ## Which function completes -/

theorem zshIndex_eq (ps : List Str) (parents : List Cmd) (n : Nat) :
    zshIndex ps (positionalNum parents n : Nat) = (ps[positionalIndex parents n]?).getD [] := by
  unfold zshIndex positionalNum
  have h1 : ((positionalIndex parents n + 1 : Nat) : Int) ≠ 0 := by omega
  have h2 : ¬ ((positionalIndex parents n + 1 : Nat) : Int) < 0 := by omega
  have h3 : ¬ ((positionalIndex parents n + 1 : Nat) : Int) - 1 < 0 := by omega
  have h4 : (((positionalIndex parents n + 1 : Nat) : Int) - 1).toNat = positionalIndex parents n := by omega
  simp only [h1, h2, h3, h4, if_false]

theorem zshCall_none (F : List Cmd → Cmd → Except Err ZshFunction) (rx : Bool → Str → Str → Bool) (init : Str → Parsed) (p : Parsed)
    (parents : List Cmd) (c : Cmd) (w : Str) (ds : List Cmd) (h : ∀ d ∈ ds, w ∉ variations c d) :
    Cmd.zshCall F rx init p parents c w ds = .ok none := by
  induction ds with
  | nil => rw [Cmd.zshCall]
  | cons d ds ih =>
    rw [Cmd.zshCall, if_neg (by simpa using h d (by simp))]
    exact ih (fun d hd => h d (by simp [hd]))

theorem zshCall_some (F : List Cmd → Cmd → Except Err ZshFunction) (rx : Bool → Str → Str → Bool) (init : Str → Parsed) (p : Parsed)
    (parents : List Cmd) (c : Cmd) (w : Str) (d : Cmd) (ds : List Cmd) (hd : d ∈ ds) (hw : w ∈ variations c d)
    (h : ∀ e ∈ ds, w ∈ variations c e → e = d) {r : ZshEnd} (hr : d.zshRun F rx init p (parents ++ [c]) = .ok r) :
    Cmd.zshCall F rx init p parents c w ds = .ok (some r) := by
  induction ds with
  | nil => simp at hd
  | cons e ds ih =>
    rw [Cmd.zshCall]
    by_cases he : w ∈ variations c e
    · rw [if_pos (by simpa using he), h e (by simp) he, hr]; rfl
    · rw [if_neg (by simpa using he)]
      refine ih ?_ (fun x hx => h x (by simp [hx]))
      rcases List.mem_cons.mp hd with rfl | hd
      · exact absurd hw he
      · exact hd

theorem zshRun_eq (F : List Cmd → Cmd → Except Err ZshFunction) (rx : Bool → Str → Str → Bool) (init : Str → Parsed) (p : Parsed)
    (parents : List Cmd) (c : Cmd) {f : ZshFunction} (hf : F parents c = .ok f) {r : Option ZshEnd}
    (hr : (match c.sub with
      | some n => Cmd.zshCall F rx init ((f.init.map init).getD p) parents c
          (zshIndex ((f.init.map init).getD p).positionals (positionalNum parents n)) c.children
      | none => .ok none) = .ok r) :
    c.zshRun F rx init p parents = .ok (r.getD ⟨parents, c, (f.init.map init).getD p, f.elements rx ((f.init.map init).getD p)⟩) := by
  cases c with
  | node d s ch =>
    rw [Cmd.zshRun]
    simp only [bind, Except.bind, hf]
    simp only [Cmd.sub, Cmd.children] at hr
    cases s with
    | none => simp only at hr ⊢; cases hr; rfl
    | some n => simp only at hr ⊢; rw [hr]

theorem sub_uses {isRegex : Str → Bool} {act : ZshActions} {parents : List Cmd} {c : Cmd} {f : ZshFunction}
    (h : zshFunction isRegex act parents c = .ok f) (hs : c.sub.isSome = true) :
    f.init = some (queryOptionStrings (getOptions parents c true false)) := by
  obtain ⟨as, -, -, -, hi⟩ := zshFunction_ok h
  rw [hi, if_pos]
  simp [zshQueryUsed, hs]

/-- The function of the command that the words belong to is the one that completes. -/
theorem zshRun_reached {isRegex : Str → Bool} {act : ZshActions} {rx : Bool → Str → Str → Bool} {root : Cmd} (hc : CleanTree root)
    (hp : PlainTree root) {kind : List Cmd → Cmd → Str → Option ArgKind} (hk : TellsKinds root kind)
    (hF : ∀ qs x, At root qs x → ∃ f, zshFunction isRegex act qs x = .ok f)
    {its : List Item} {e : Ending} {parents : List Cmd} {c : Cmd} (ht : TypedFor root kind its e parents c)
    {q : Str → Str} {raws : List Str} (hraw : raws.map q = its.flatMap Item.words ++ e.words)
    (hq : ∀ pre w post, raws = pre ++ w :: post → q w = ['-', '-'] → post.map q = post)
    {f : ZshFunction} (hf : zshFunction isRegex act parents c = .ok f) :
    ∀ (rest qs : List Cmd) (x : Cmd) (p : Parsed), parents ++ [c] = qs ++ x :: rest →
      ∃ p0, x.zshRun (zshFunction isRegex act) rx (fun opts => zshQueryOf root opts q raws) p qs =
        .ok ⟨parents, c, (f.init.map (fun opts => zshQueryOf root opts q raws)).getD p0,
          f.elements rx ((f.init.map (fun opts => zshQueryOf root opts q raws)).getD p0)⟩ := by
  have hrM := (reached_iff hc _ _ _).mp ht.reached
  have hatc := reached_at hrM
  intro rest
  induction rest with
  | nil =>
    intro qs x p he
    have := List.append_inj' he rfl
    simp at this
    obtain ⟨rfl, rfl⟩ := this
    refine ⟨p, ?_⟩
    refine zshRun_eq (r := none) _ _ _ _ _ _ hf ?_
    cases hs : c.sub with
    | none => rfl
    | some n =>
      simp only
      refine zshCall_none _ _ _ _ _ _ _ _ ?_
      intro d hd
      have hi := sub_uses hf (by simp [hs])
      rw [hi]
      simp only [Option.map_some, Option.getD_some]
      rw [(query_all hp hk hatc ht.items ht.ending hraw hq).2, zshIndex_eq]
      have h1 := (reached_slot hc.toM hrM).2 (positionalIndex parents n) (by simp [subSlot, hs])
      rw [List.getElem?_eq_none h1]
      exact hc.toM.nonempty _ _ hatc d hd
  | cons d rest ih =>
    intro qs x p he
    obtain ⟨hatx, hd⟩ := at_step hatc he
    obtain ⟨fx, hfx⟩ := hF qs x hatx
    have hsome := hc.slot _ _ hatx (List.ne_nil_of_mem hd)
    obtain ⟨n, hn⟩ := Option.isSome_iff_exists.mp hsome
    have hi := sub_uses hfx hsome
    obtain ⟨p0, hr⟩ := ih (qs ++ [x]) d (zshQueryOf root (queryOptionStrings (getOptions qs x true false)) q raws) (by rw [he]; simp)
    refine ⟨p0, ?_⟩
    refine zshRun_eq (r := some _) _ _ _ _ _ _ hfx ?_
    rw [hn, hi]
    simp only [Option.map_some, Option.getD_some]
    -- the word of the subcommand
    obtain ⟨m, w, h1, h2, h3⟩ := reached_words hrM qs x d rest he
    have hm : m = positionalIndex qs n := by simp [subSlot, hn] at h1; exact h1.symm
    obtain ⟨front, back, m', g1, g2, g3, g4⟩ := ht.before qs x d rest he
    have hm' : m' = m := by
      have := (subSlot_iff (hc.numbered _ _ hatx) m).mp h1
      rw [g3.2, this.2]
    subst hm'
    have hpre := query_front hp hk hatx g2 (rest := back.flatMap Item.words ++ e.words) (by rw [hraw, g1]; simp) hq
    have hw : (zshQueryOf root (queryOptionStrings (getOptions qs x true false)) q raws).positionals[positionalIndex qs n]? = some w := by
      obtain ⟨t, hpt⟩ := hpre
      rw [← hpt, ← hm, List.getElem?_append_left g4]
      have : (lineOf its e).positionals = front.flatMap Item.positionals ++ (back.flatMap Item.positionals ++ e.positionals) := by
        simp [lineOf, g1]
      rw [this, List.getElem?_append_left g4] at h2
      exact h2
    rw [zshIndex_eq, hw]
    simp only [Option.getD_some]
    exact zshCall_some _ _ _ _ _ _ _ d _ hd h3 (fun y hy hwy => hc.toM.distinct _ _ hatx y hy d hd w hwy h3) hr

/-! ## Conditions -/

/-- Conditions for which the code works (C08). -/
def WhenSafeZsh (isRegex : Str → Bool) (w : Option Str) : Prop :=
  ∀ t ts, w = some t → parseWhen isRegex t = .ok ts → (∃ e, Denotes ts e) ∧ ∀ k, .cmd k ∈ ts → condSafe k

/-- The code of a condition succeeds, or there is none. -/
def CodeTrue (rx : Bool → Str → Str → Bool) (l : Line) : Option (List (Tok Cond) × List (Tok QueryPrim)) → Prop
  | none => True
  | some x => run (QueryPrim.succeedsZsh rx ⟨l.given, l.positionals⟩) x.2 = some true

open Classical in
theorem code_true {isRegex : Str → Bool} {rx : Bool → Str → Str → Bool} {l : Line} {a : ZshArg} (hw : WhenSafeZsh isRegex a.when_)
    {code : Option (List (Tok Cond) × List (Tok QueryPrim))} (hc : zshCode isRegex a = .ok code) :
    CodeTrue rx l code ↔ WhenTrueOf isRegex rx l a.when_ := by
  unfold zshCode at hc
  unfold WhenTrueOf
  cases ha : a.when_ with
  | none =>
    rw [ha] at hc
    simp only [Except.ok.injEq] at hc
    subst hc
    simp [CodeTrue]
  | some t =>
    rw [ha] at hc hw
    obtain ⟨ts, hts, hc⟩ := bind_ok hc
    obtain ⟨g, hg, hc⟩ := bind_ok hc
    simp only [Except.ok.injEq] at hc
    subst hc
    obtain ⟨⟨e, he⟩, hs⟩ := hw t ts rfl hts
    have h := (C08_zsh_partial rx l ts e he hs g hg).1
    simp only [CodeTrue, Option.some.injEq, forall_eq']
    rw [h]
    simp only [Option.some.injEq]
    constructor
    · intro hev
      exact ⟨ts, e, hts, he, _, fun c => by simp, hev⟩
    · rintro ⟨ts', e', h1, h2, v, h3, h4⟩
      rw [hts] at h1; cases h1
      have := denotes_unique he h2
      subst this
      have hv : v = fun c => decide (holdsTogether rx l c) := by
        funext c
        cases hvc : v c with
        | true => exact (decide_eq_true ((h3 c).mp hvc)).symm
        | false =>
          refine (decide_eq_false fun hh => ?_).symm
          rw [(h3 c).mpr hh] at hvc; cases hvc
      rw [hv] at h4; exact h4

/-- The specs that `_arguments` gets. -/
theorem elements_eq (rx : Bool → Str → Str → Bool) (l : Line) (f : ZshFunction) {p : Parsed} (h1 : p.having = l.given)
    (h2 : p.positionals = l.positionals) :
    ∃ as : List ZshArg, f.elements rx p = as.map (·.spec) ∧ ∀ a, a ∈ as ↔ ∃ code, (a, code) ∈ f.args ∧ CodeTrue rx l code := by
  unfold ZshFunction.elements
  rw [h1, h2]
  refine ⟨((f.args.filter (fun a => a.2.isNone)) ++ (f.args.filter (fun a => match a.2 with
      | some x => run (QueryPrim.succeedsZsh rx ⟨l.given, l.positionals⟩) x.2 == some true
      | none => false))).map (·.1), by simp [Function.comp_def]; rfl, ?_⟩
  intro a
  simp only [List.mem_map, List.mem_append, List.mem_filter]
  constructor
  · rintro ⟨⟨b, code⟩, ⟨hm, hc⟩ | ⟨hm, hc⟩, rfl⟩
    · refine ⟨code, hm, ?_⟩
      cases code with
      | none => trivial
      | some x => simp at hc
    · refine ⟨code, hm, ?_⟩
      cases code with
      | none => trivial
      | some x => simpa [CodeTrue] using hc
  · rintro ⟨code, hm, hc⟩
    refine ⟨(a, code), ?_, rfl⟩
    cases code with
    | none => exact Or.inl ⟨hm, rfl⟩
    | some x => exact Or.inr ⟨hm, by simpa [CodeTrue] using hc⟩

/-! ## Reading the specs -/

theorem splitSuffix_prefix (n : List Char) : (splitSuffix n).1 <+: n := by
  have key : ∀ suf r : List Char, n.reverse = suf ++ r → r.reverse <+: n := by
    intro suf r h
    have := congrArg List.reverse h
    simp at this
    rw [this]
    exact List.prefix_append _ _
  unfold splitSuffix
  split
  · exact key ['-', '='] _ (by assumption)
  · exact key ['-'] _ (by assumption)
  · exact key ['='] _ (by assumption)
  · exact key ['+'] _ (by assumption)
  · exact List.prefix_refl _

/-- A word without the star of options that may be repeated. -/
def withoutStar (s : List Char) : List Char := match s with
  | '*' :: r => r
  | _ => s

theorem readOption_name {hidden : Bool} {ex : List (List Char)} {s : List Char} {sp : Spec} (h : readOption hidden ex s = some sp) :
    sp.name <+: (readName (withoutStar s)).1 := by
  unfold readOption at h
  have key : ∀ rep s', Option.map (fun x : Option (List Char) × Bool × Option (List Char × List Char) =>
      (⟨hidden, ex, rep, (splitSuffix (readName s').1).1, (splitSuffix (readName s').1).2, x.1, x.2.1, x.2.2⟩ : Spec))
        (readRest (readName s').2) = some sp → sp.name <+: (readName s').1 := by
    intro rep s' h
    simp only [Option.map_eq_some_iff] at h
    obtain ⟨⟨x, y, z⟩, -, rfl⟩ := h
    exact splitSuffix_prefix _
  split at h
  rename_i rep s' heq
  have e : withoutStar s = s' := by
    unfold withoutStar
    split at heq
    · simp only [Prod.mk.injEq] at heq; exact heq.2
    · rename_i hn
      simp only [Prod.mk.injEq] at heq
      split
      · rename_i r; exact absurd rfl (hn r)
      · exact heq.2
  rw [e]
  exact key rep s' h

/-- A word that is read as an option is not a normal argument. -/
theorem readElement_option {w : List Char} {sp : Spec} (h : ZshArgs.read w = some sp) (hn : sp.name.head? = some '-') :
    readElement w = some (.option sp) := by
  have hnone : readNormal w = none := by
    cases hr : readNormal w with
    | none => rfl
    | some n =>
      exfalso
      unfold readNormal at hr
      simp only at hr
      split at hr
      · rename_i hnum
        cases w with
        | nil => simp at hnum
        | cons c cs =>
          have hname : ∃ r, sp.name <+: (readName r).1 ∧ ((readName r).1.head? ≠ some '-') := by
            by_cases hc : c = '*'
            · subst hc
              have h' : readOption false [] ('*' :: cs) = some sp := by simpa [ZshArgs.read, readListed] using h
              refine ⟨cs, readOption_name h', ?_⟩
              rcases hnum with hnum | ⟨-, hnum⟩
              · cases cs with
                | nil => simp [readName]
                | cons d ds =>
                  by_cases hd : d = ':'
                  · subst hd; simp [readName]
                  · simp [List.takeWhile, hd] at hnum
              · exfalso
                have := hnum '*' (by simp [List.takeWhile])
                revert this; decide
            · have hd : c.isDigit = true := by
                rcases hnum with hnum | ⟨hne, hnum⟩
                · exfalso
                  by_cases hcc : c = ':'
                  · subst hcc; simp [List.takeWhile] at hnum
                  · simp [List.takeWhile, hcc] at hnum
                    exact hc hnum.1
                · by_cases hcc : c = ':'
                  · subst hcc; simp [List.takeWhile] at hne
                  · exact hnum c (by simp [List.takeWhile, hcc])
              have hne : ∀ d : Char, d.isDigit = false → c ≠ d := by
                rintro d h rfl; rw [hd] at h; cases h
              have h1 := hne '!' (by decide)
              have h2 := hne '(' (by decide)
              have h3 := hne '-' (by decide)
              have h' : readOption false [] (c :: cs) = some sp := by
                rw [ZshArgs.read.eq_def] at h
                split at h
                · rename_i he; simp only [List.cons.injEq] at he; exact absurd he.1 h1
                · rw [readListed.eq_def] at h
                  split at h
                  · rename_i he; simp only [List.cons.injEq] at he; exact absurd he.1 h2
                  · exact h
              have := readOption_name h'
              unfold withoutStar at this
              split at this
              · rename_i he; simp only [List.cons.injEq] at he; exact absurd he.1 hc
              · refine ⟨c :: cs, this, ?_⟩
                rw [readName]
                split
                · simp
                · simp [h3]
          obtain ⟨r, ⟨t, ht⟩, h2⟩ := hname
          cases hs : sp.name with
          | nil => rw [hs] at hn; simp at hn
          | cons d ds =>
            rw [hs] at hn ht
            rw [← ht] at h2
            simp at hn h2
            exact h2 hn
      · cases hr
  unfold readElement
  rw [hnone, h]
  simp [hn]

/-- The content of the spec of the option string `s` of the option `o` of `x`. -/
structure OptionSpec (x : Cmd) (o : Opt) (s : Str) (sp : Spec) : Prop where
  name : sp.name = s
  hidden : sp.hidden = o.hidden
  repeated : sp.repeated = decide (o.repeatable ≠ .val false)
  final : o.final = true → sp.excludes = [S "-", S "*"]
  excludes : o.final = false → ∀ y, y ∈ sp.excludes ↔
    (∃ other ∈ x.data.options, ShareGroup o other ∧ other.eqv o = false ∧ y ∈ other.strings) ∨
      (y ∈ o.strings ∧ o.repeatable = .val false)

/-- The content of the spec of the normal argument with the number `k`, or of the rest. -/
structure NormalSpec (k : Nat) (repeatable : Bool) (message action : Str) (n : Normal) : Prop where
  number : n.number = if repeatable then none else some (natStr k)
  message : n.message = message
  action : Posix.words action = some [n.action]

/-- An action whose text Zsh reads as one word, without backslashes that `_arguments` would interpret. -/
def ReadableAction (a : Str) : Prop :=
  ∃ t, noBackslash .word a = true ∧ Posix.words a = some [t] ∧ (∀ c, a.head? = some c → Posix.blank c = false) ∧ BackslashPaired t

/-- The option has strings that are read as one word, and texts and actions that are. -/
structure ReadableOption (act : ZshActions) (o : Opt) : Prop where
  nonempty : o.strings ≠ []
  simple : ∀ s ∈ o.strings, SimpleOption s
  sep : o.longSep ≠ .inherit
  help : ∀ d, o.help = some d → BackslashBefore d
  metavar : truthyList o.complete = true → ∀ m, o.metavar = some m → m ≠ [] ∧ BackslashPaired m
  action : truthyList o.complete = true → ReadableAction (act.option o)

/-- The texts of the options, positionals and subcommands in the function of `c`. -/
structure ReadableZsh (act : ZshActions) (parents : List Cmd) (c : Cmd) : Prop where
  options : ∀ x ∈ zshScope parents c, ∀ o ∈ x.data.options, ReadableOption act o
  positionals : ∀ x ∈ parents ++ [c], ∀ p ∈ x.data.positionals, BackslashPaired (positionalMessage p) ∧ ReadableAction (act.positional p)
  choices : ∀ x ∈ parents ++ [c], x.sub.isSome = true → ReadableAction (act.choices (subNames x))
  wraps : NoWraps c

theorem option_element {act : ZshActions} {x : Cmd} {o : Opt} (ho : o ∈ x.data.options)
    (hr : ∀ q ∈ x.data.options, ReadableOption act q) {a : ZshArg} (h : zshOptionArg act (x, o) = .ok a) :
    a.target = .option x o ∧ a.when_ = o.when_ ∧ ∃ (words : List (List Char)) (es : List Element), Expands a.spec words ∧ words.map readElement = es.map some ∧
      (∀ e ∈ es, ∃ s ∈ o.strings, ∃ sp, e = .option sp ∧ OptionSpec x o s sp) ∧
      ∀ s ∈ o.strings, ∃ sp, .option sp ∈ es ∧ OptionSpec x o s sp := by
  have hro := hr o ho
  obtain ⟨z, hz, e1, e2, e3, e4, e5, e6, e7, e8, e9, e10, hconf⟩ :=
    zshOption_spec x.data.options o ho (if truthyList o.complete then some (act.option o) else none)
  have hread : ∃ t, ReadableTexts z t := by
    cases hc : truthyList o.complete with
    | true =>
      obtain ⟨t, ht⟩ := hro.action hc
      refine ⟨t, fun d h => hro.help d (by rw [← e2]; exact h), fun _ m h => hro.metavar hc m (by rw [← e8]; exact h), fun _ => ?_⟩
      rw [e9, hc]; exact ht
    | false =>
      refine ⟨[], fun d h => hro.help d (by rw [← e2]; exact h), fun h => ?_, fun h => ?_⟩
      · rw [e3, hc] at h; cases h
      · rw [e3, hc] at h; cases h
  obtain ⟨t, ht⟩ := hread
  have hp' : ∀ s ∈ z.optionStrings ++ z.conflicting, SimpleOption s := by
    intro s hs
    rcases List.mem_append.mp hs with q | q
    · rw [e1] at q; exact hro.simple s q
    · obtain ⟨other, h1, _, _, h2⟩ := (hconf s).mp q
      exact (hr other h1).simple s h2
  obtain ⟨text, words, excl, h1, h2, h3, h4, h5⟩ := C53_spec_partial z t ht (by rw [e1]; exact hro.nonempty) hp'
    (fun _ => Or.inr (by rw [e10]; exact hro.sep))
  unfold zshOptionArg at h
  obtain ⟨z', hz', h⟩ := bind_ok h
  simp only at hz'
  rw [hz] at hz'
  cases hz'
  obtain ⟨text', ht', h⟩ := bind_ok h
  rw [h1] at ht'
  cases ht'
  simp only [Except.ok.injEq] at h
  subst h
  refine ⟨rfl, rfl, words, ?_⟩
  let mk : Str → Spec := fun s =>
    { hidden := z.hidden, excludes := excl, repeated := z.repeatable, name := s, place := argPlace z s,
      explanation := z.description, isOptional := false,
      argument := if z.complete then some (z.metavar.getD [' '], t) else none }
  have hmk : ∀ s ∈ o.strings, OptionSpec x o s (mk s) := by
    intro s hs
    refine ⟨rfl, e6, e5, fun hf => h4 (by rw [e7]; exact hf), fun hf y => ?_⟩
    show y ∈ excl ↔ _
    rw [(h5 (by rw [e7]; exact hf)).2 y, hconf, e1, e5]
    simp
  have hwords : words.map readElement = (o.strings.map (fun s => Element.option (mk s))).map some := by
    have h3 : words.map ZshArgs.read = o.strings.map (fun s => some (mk s)) := by rw [← e1]; exact h3
    have hsim := hro.simple
    clear hmk hp' hconf h hro h2
    rename_i h3'
    clear h3'
    generalize o.strings = strs at h3 hsim
    induction strs generalizing words with
    | nil => simp at h3; subst h3; rfl
    | cons s ss ih =>
      cases words with
      | nil => simp at h3
      | cons w ws =>
        simp only [List.map_cons, List.cons.injEq] at h3 ⊢
        exact ⟨readElement_option h3.1 (hsim s (by simp)).1, ih ws h3.2 (fun q hq => hsim q (by simp [hq]))⟩
  refine ⟨_, h2, hwords, ?_, ?_⟩
  · intro e he
    obtain ⟨s, hs, rfl⟩ := List.mem_map.mp he
    exact ⟨s, hs, _, rfl, hmk s hs⟩
  · intro s hs
    exact ⟨mk s, List.mem_map.mpr ⟨s, hs, rfl⟩, hmk s hs⟩

theorem normal_element {k : Nat} {repeatable : Bool} {message action text : Str} (hm : message ≠ [] ∧ BackslashPaired message)
    (ha : ReadableAction action) (h : makePositionalSpec k repeatable message action = .ok text) :
    ∃ w n, Expands text [w] ∧ readElement w = some (.normal n) ∧ NormalSpec k repeatable message action n := by
  obtain ⟨t, ha⟩ := ha
  obtain ⟨text', w, h1, h2, h3⟩ := C53_positional_partial k repeatable message action t hm ha
  rw [h] at h1
  cases h1
  refine ⟨w, _, .one w h2, by simp only [readElement]; rw [h3], ⟨rfl, rfl, ha.2.1⟩⟩

theorem positionalMessage_ne (p : Pos) : positionalMessage p ≠ [] := by
  unfold positionalMessage
  split <;> simp

theorem paired_of_none {t : Str} (h : '\\' ∉ t) : BackslashPaired t := by
  induction t with
  | nil => simp [BackslashPaired]
  | cons c r ih =>
    simp only [List.mem_cons, not_or] at h
    have e : BackslashPaired (c :: r) = BackslashPaired r := by
      rw [BackslashPaired.eq_def]; split <;> simp_all
    rw [e]; exact ih h.2

theorem command_paired (k : Nat) : S "command" ++ natStr k ≠ [] ∧ BackslashPaired (S "command" ++ natStr k) := by
  refine ⟨by simp [S], ?_⟩
  have hno : '\\' ∉ S "command" ++ natStr k := by
    intro h
    rcases List.mem_append.mp h with h | h
    · revert h; decide
    · exact absurd (natStr_isDigit h) (by decide)
  exact paired_of_none hno

/-- What the elements of a spec are. -/
def Describes (act : ZshActions) (a : ZshArg) (es : List Element) : Prop :=
  match a.target with
  | .option x o => (∀ e ∈ es, ∃ s ∈ o.strings, ∃ sp, e = .option sp ∧ OptionSpec x o s sp) ∧
      ∀ s ∈ o.strings, ∃ sp, .option sp ∈ es ∧ OptionSpec x o s sp
  | .positional qs _ p => ∃ n, es = [.normal n] ∧
      NormalSpec (positionalNum qs p.number) p.repeatable (positionalMessage p) (act.positional p) n
  | .subcommands qs x => ∃ m k n, x.sub = some m ∧ es = [.normal n] ∧
      NormalSpec (positionalNum qs m) false (S "command" ++ natStr k) (act.choices (subNames x)) n
  | .wraps => False

theorem spec_elements {act : ZshActions} {parents : List Cmd} {c : Cmd} (hr : ReadableZsh act parents c) {a : ZshArg}
    (h : ZshFrom act parents c a) :
    ∃ (words : List (List Char)) (es : List Element), Expands a.spec words ∧ words.map readElement = es.map some ∧ Describes act a es := by
  have hin : ∀ {qs : List Cmd} {x : Cmd} {rest : List Cmd}, parents ++ [c] = qs ++ x :: rest → x ∈ parents ++ [c] := by
    intro qs x rest h; rw [h]; simp
  cases h with
  | option x o a hn h =>
    obtain ⟨l1, l2, h1, ho, -⟩ := hn
    have hx : x ∈ zshScope parents c := by rw [h1]; simp
    obtain ⟨ht, -, words, es, w1, w2, w3, w4⟩ := option_element ho (hr.options x hx) h
    refine ⟨words, es, w1, w2, ?_⟩
    unfold Describes
    rw [ht]
    exact ⟨w3, w4⟩
  | positional qs x rest p a he hp h =>
    unfold zshPositionalArg at h
    obtain ⟨spec, hs, h⟩ := bind_ok h
    simp only [Except.ok.injEq] at h
    subst h
    obtain ⟨m1, m2⟩ := hr.positionals x (hin he) p hp
    obtain ⟨w, n, w1, w2, w3⟩ := normal_element ⟨positionalMessage_ne p, m1⟩ m2 hs
    exact ⟨[w], [.normal n], w1, by simp [w2], n, rfl, w3⟩
  | subcommands qs x rest m k a he hm h =>
    unfold zshSubArg at h
    obtain ⟨spec, hs, h⟩ := bind_ok h
    simp only [Except.ok.injEq] at h
    subst h
    obtain ⟨w, n, w1, w2, w3⟩ := normal_element (command_paired k) (hr.choices x (hin he) (by simp [hm])) hs
    exact ⟨[w], [.normal n], w1, by simp [w2], m, k, n, hm, rfl, w3⟩

theorem readsAs_build (R : ZshArg → List Element → Prop) : ∀ (as : List ZshArg), (∀ a ∈ as, ∃ (words : List (List Char)) (es : List Element),
      Expands a.spec words ∧ words.map readElement = es.map some ∧ R a es) →
    ∃ els, ReadsAs (as.map (·.spec)) els ∧ (∀ e ∈ els, ∃ a ∈ as, ∃ es, R a es ∧ e ∈ es) ∧
      ∀ a ∈ as, ∃ es, R a es ∧ ∀ e ∈ es, e ∈ els
  | [], _ => ⟨[], .nil, by simp, by simp⟩
  | a :: as, h => by
    obtain ⟨els, h1, h2, h3⟩ := readsAs_build R as (fun b hb => h b (by simp [hb]))
    obtain ⟨words, es, w1, w2, w3⟩ := h a (by simp)
    refine ⟨es ++ els, .cons w1 w2 h1, ?_, ?_⟩
    · intro e he
      rcases List.mem_append.mp he with he | he
      · exact ⟨a, by simp, es, w3, he⟩
      · obtain ⟨b, hb, es', r1, r2⟩ := h2 e he
        exact ⟨b, by simp [hb], es', r1, r2⟩
    · intro b hb
      rcases List.mem_cons.mp hb with rfl | hb
      · exact ⟨es, w3, fun e he => List.mem_append_left _ he⟩
      · obtain ⟨es', r1, r2⟩ := h3 b hb
        exact ⟨es', r1, fun e he => List.mem_append_right _ (r2 e he)⟩

/-- The elements that `_arguments` gets in the function of `c`. -/
structure ElementsOf (isRegex : Str → Bool) (rx : Bool → Str → Str → Bool) (act : ZshActions) (l : Line) (parents : List Cmd) (c : Cmd)
    (els : List Element) : Prop where
  options : ∀ sp, .option sp ∈ els → ∃ x o s, Nearest (zshScope parents c) x o ∧ WhenTrueOf isRegex rx l o.when_ ∧ s ∈ o.strings ∧
    OptionSpec x o s sp
  option : ∀ x o s, Nearest (zshScope parents c) x o → WhenTrueOf isRegex rx l o.when_ → s ∈ o.strings →
    ∃ sp, .option sp ∈ els ∧ OptionSpec x o s sp
  normals : ∀ n, .normal n ∈ els → ∃ qs x rest, parents ++ [c] = qs ++ x :: rest ∧
    ((∃ p ∈ x.data.positionals, WhenTrueOf isRegex rx l p.when_ ∧
      NormalSpec (positionalNum qs p.number) p.repeatable (positionalMessage p) (act.positional p) n) ∨
     ∃ m k, x.sub = some m ∧ NormalSpec (positionalNum qs m) false (S "command" ++ natStr k) (act.choices (subNames x)) n)
  positional : ∀ qs x rest, parents ++ [c] = qs ++ x :: rest → ∀ p ∈ x.data.positionals, WhenTrueOf isRegex rx l p.when_ →
    ∃ n, .normal n ∈ els ∧ NormalSpec (positionalNum qs p.number) p.repeatable (positionalMessage p) (act.positional p) n
  subcommands : ∀ qs x rest, parents ++ [c] = qs ++ x :: rest → ∀ m, x.sub = some m →
    ∃ n k, .normal n ∈ els ∧ NormalSpec (positionalNum qs m) false (S "command" ++ natStr k) (act.choices (subNames x)) n

/-- The conditions that completion for `c` looks at are safe. -/
def WhensSafe (isRegex : Str → Bool) (parents : List Cmd) (c : Cmd) : Prop :=
  ∀ w, ConditionHere parents c w → WhenSafeZsh isRegex (some w)

theorem optionArg_when {act : ZshActions} {x : Cmd} {o : Opt} {a : ZshArg} (h : zshOptionArg act (x, o) = .ok a) :
    a.when_ = o.when_ ∧ a.target = .option x o := by
  unfold zshOptionArg at h
  obtain ⟨z, hz, h⟩ := bind_ok h
  obtain ⟨spec, hs, h⟩ := bind_ok h
  simp only [Except.ok.injEq] at h
  subst h
  exact ⟨rfl, rfl⟩

theorem positionalArg_when {act : ZshActions} {qs : List Cmd} {x : Cmd} {p : Pos} {a : ZshArg} (h : zshPositionalArg act qs x p = .ok a) :
    a.when_ = p.when_ ∧ a.target = .positional qs x p := by
  unfold zshPositionalArg at h
  obtain ⟨spec, hs, h⟩ := bind_ok h
  simp only [Except.ok.injEq] at h
  subst h
  exact ⟨rfl, rfl⟩

theorem subArg_when {act : ZshActions} {k : Nat} {qs : List Cmd} {x : Cmd} {m : Nat} {a : ZshArg} (h : zshSubArg act k qs x m = .ok a) :
    a.when_ = none ∧ a.target = .subcommands qs x := by
  unfold zshSubArg at h
  obtain ⟨spec, hs, h⟩ := bind_ok h
  simp only [Except.ok.injEq] at h
  subst h
  exact ⟨rfl, rfl⟩

theorem from_when {act : ZshActions} {parents : List Cmd} {c : Cmd} {a : ZshArg} (h : ZshFrom act parents c a) :
    a.when_ = none ∨ ∃ w, a.when_ = some w ∧ ConditionHere parents c w := by
  cases hw : a.when_ with
  | none => exact Or.inl rfl
  | some w =>
    refine Or.inr ⟨w, rfl, ?_⟩
    cases h with
    | option x o a hn h => exact Or.inl ⟨x, o, hn, by rw [← (optionArg_when h).1]; exact hw⟩
    | positional qs x rest p a he hp h =>
      exact Or.inr ⟨x, by rw [he]; simp, p, hp, by rw [← (positionalArg_when h).1]; exact hw⟩
    | subcommands qs x rest m k a he hm h => rw [(subArg_when h).1] at hw; cases hw

theorem from_safe {isRegex : Str → Bool} {act : ZshActions} {parents : List Cmd} {c : Cmd} (hs : WhensSafe isRegex parents c) {a : ZshArg}
    (h : ZshFrom act parents c a) : WhenSafeZsh isRegex a.when_ := by
  rcases from_when h with e | ⟨w, e, hw⟩
  · rw [e]; intro t ts h; cases h
  · rw [e]; exact hs w hw

/-- The words for `_arguments` can be read, and are those of the options, positionals and subcommands. -/
theorem zsh_elements {isRegex : Str → Bool} {rx : Bool → Str → Str → Bool} {act : ZshActions} {root : Cmd} {parents : List Cmd} {c : Cmd}
    (hat : At root parents c) (hr : ReadableZsh act parents c) (hs : WhensSafe isRegex parents c) {f : ZshFunction}
    (hf : zshFunction isRegex act parents c = .ok f) {p : Parsed} {l : Line}
    (h1 : p.having = l.given) (h2 : p.positionals = l.positionals) :
    ∃ els, ReadsAs (f.elements rx p) els ∧ ElementsOf isRegex rx act l parents c els := by
  obtain ⟨as, has, f1, f2, -⟩ := zshFunction_ok hf
  obtain ⟨g1, g2, g3⟩ := mem_zshArgs hat hr.wraps has
  obtain ⟨bs, he, hbs⟩ := elements_eq rx l f h1 h2
  rw [he]
  have hmem : ∀ b, b ∈ bs ↔ b ∈ as ∧ WhenTrueOf isRegex rx l b.when_ := by
    intro b
    rw [hbs]
    constructor
    · rintro ⟨code, hm, hc⟩
      obtain ⟨k1, k2⟩ := f1 _ hm
      exact ⟨k1, (code_true (from_safe hs (g1 b k1)) k2).mp hc⟩
    · rintro ⟨hb, hw⟩
      obtain ⟨code, k1, k2⟩ := f2 b hb
      exact ⟨code, k1, (code_true (from_safe hs (g1 b hb)) k2).mpr hw⟩
  obtain ⟨els, r1, r2, r3⟩ := readsAs_build (Describes act) bs (fun b hb => spec_elements hr (g1 b ((hmem b).mp hb).1))
  refine ⟨els, r1, ⟨?_, ?_, ?_, ?_, ?_⟩⟩
  · intro sp hsp
    obtain ⟨b, hb, es, hd, hes⟩ := r2 _ hsp
    obtain ⟨hba, hbw⟩ := (hmem b).mp hb
    unfold Describes at hd
    cases g1 b hba with
    | option x o a hn h =>
      rw [(optionArg_when h).2] at hd
      rw [(optionArg_when h).1] at hbw
      obtain ⟨s, hs', sp', e, hsp'⟩ := hd.1 _ hes
      cases e
      exact ⟨x, o, s, hn, hbw, hs', hsp'⟩
    | positional qs x rest p a he hp h =>
      rw [(positionalArg_when h).2] at hd
      obtain ⟨n, rfl, -⟩ := hd
      simp at hes
    | subcommands qs x rest m k a he hm h =>
      rw [(subArg_when h).2] at hd
      obtain ⟨_, _, n, -, rfl, -⟩ := hd
      simp at hes
  · intro x o s hn hw hso
    obtain ⟨a, ha, hoa⟩ := g2 x o hn
    obtain ⟨es, hd, hes⟩ := r3 a ((hmem a).mpr ⟨ha, by rw [(optionArg_when hoa).1]; exact hw⟩)
    unfold Describes at hd
    rw [(optionArg_when hoa).2] at hd
    obtain ⟨sp, k1, k2⟩ := hd.2 s hso
    exact ⟨sp, hes _ k1, k2⟩
  · intro n hn
    obtain ⟨b, hb, es, hd, hes⟩ := r2 _ hn
    obtain ⟨hba, hbw⟩ := (hmem b).mp hb
    unfold Describes at hd
    cases g1 b hba with
    | option x o a hn h =>
      rw [(optionArg_when h).2] at hd
      obtain ⟨s, hs', sp', e, hsp'⟩ := hd.1 _ hes
      cases e
    | positional qs x rest p a he hp h =>
      rw [(positionalArg_when h).2] at hd
      rw [(positionalArg_when h).1] at hbw
      obtain ⟨n', rfl, hn'⟩ := hd
      simp at hes
      subst hes
      exact ⟨qs, x, rest, he, Or.inl ⟨p, hp, hbw, hn'⟩⟩
    | subcommands qs x rest m k a he hm h =>
      rw [(subArg_when h).2] at hd
      obtain ⟨m', k', n', hm', rfl, hn'⟩ := hd
      simp at hes
      subst hes
      exact ⟨qs, x, rest, he, Or.inr ⟨m', k', hm', hn'⟩⟩
  · intro qs x rest he p hp hw
    obtain ⟨a, ha, hpa⟩ := (g3 qs x rest he).1 p hp
    obtain ⟨es, hd, hes⟩ := r3 a ((hmem a).mpr ⟨ha, by rw [(positionalArg_when hpa).1]; exact hw⟩)
    unfold Describes at hd
    rw [(positionalArg_when hpa).2] at hd
    obtain ⟨n, rfl, hn⟩ := hd
    exact ⟨n, hes _ (by simp), hn⟩
  · intro qs x rest he m hm
    obtain ⟨a, ha, k, hsa⟩ := (g3 qs x rest he).2 m hm
    obtain ⟨es, hd, hes⟩ := r3 a ((hmem a).mpr ⟨ha, by rw [(subArg_when hsa).1]; intro t ht; cases ht⟩)
    unfold Describes at hd
    rw [(subArg_when hsa).2] at hd
    obtain ⟨m', k', n, hm', rfl, hn⟩ := hd
    rw [hm] at hm'
    cases hm'
    exact ⟨n, k', hes _ (by simp), hn⟩

/-! ## When the command line is parsed -/

/-- A function that uses `query` calls `query init`. -/
theorem init_of_parses {isRegex : Str → Bool} {act : ZshActions} {root : Cmd} {parents : List Cmd} {c : Cmd} (hat : At root parents c)
    (hwr : NoWraps c) {f : ZshFunction} (hf : zshFunction isRegex act parents c = .ok f) :
    f.init = some (queryOptionStrings (getOptions parents c true false)) ∨ (f.init = none ∧ ¬ ParsesLine isRegex parents c) := by
  obtain ⟨as, has, f1, f2, hi⟩ := zshFunction_ok hf
  obtain ⟨g1, g2, g3⟩ := mem_zshArgs hat hwr has
  rw [hi]
  cases hq : zshQueryUsed c f.args with
  | true => exact Or.inl rfl
  | false =>
    refine Or.inr ⟨rfl, ?_⟩
    simp only [zshQueryUsed, Bool.or_eq_false_iff, List.any_eq_false] at hq
    obtain ⟨⟨q1, q2⟩, q3⟩ := hq
    have huse : ∀ a ∈ as, ∀ w ts, a.when_ = some w → parseWhen isRegex w = .ok ts → ∀ k, .cmd k ∈ ts → ¬ OnOptions k := by
      intro a ha w ts hw hts k hk hon
      obtain ⟨code, k1, k2⟩ := f2 a ha
      unfold zshCode at k2
      rw [hw] at k2
      obtain ⟨ts', hts', k2⟩ := bind_ok k2
      rw [hts] at hts'
      cases hts'
      obtain ⟨g, hg, k2⟩ := bind_ok k2
      simp only [Except.ok.injEq] at k2
      subst k2
      have := q3 _ k1
      simp only [tokensUseQuery, List.any_eq_true, not_exists, not_and] at this
      refine this _ hk ?_
      cases k <;> simp_all [OnOptions, Cond.usesQuery]
    rintro (h | ⟨o, ho, v, hv, hne⟩ | ⟨w, ts, hw, hts, k, hk, hon⟩)
    · rw [h] at q2; cases q2
    · have := q1 o ho
      rw [hv] at this
      cases v with
      | nil => exact hne rfl
      | cons a b => simp at this
    · rcases hw with ⟨x, o, hn, hwo⟩ | ⟨x, hx, p, hp, hwp⟩
      · obtain ⟨a, ha, hoa⟩ := g2 x o hn
        exact huse a ha w ts (by rw [(optionArg_when hoa).1]; exact hwo) hts k hk hon
      · obtain ⟨qs, rest, he⟩ := List.append_of_mem hx
        obtain ⟨a, ha, hpa⟩ := (g3 qs x rest he).1 p hp
        exact huse a ha w ts (by rw [(positionalArg_when hpa).1]; exact hwp) hts k hk hon

end CC
