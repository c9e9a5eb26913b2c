import Verif.Spec.FishScriptSpec
import Verif.Model.FishScript
import Verif.Props.WhenFish
import Verif.Props.FishQuery
import Verif.Props.OptionTypes
import Verif.Props.BashOptions
import Verif.Props.Misc
/-!
# Lemmas about the conditions of the `complete` commands of a Fish script
-/

namespace CC

open ShellGrammar WhenSpec

/-! ## Words that select a subcommand -/

theorem abbreviationsOf_nodup (min : Nat) (words : List Str) (word : Str) : (abbreviationsOf min words word).Nodup := by
  unfold abbreviationsOf
  rw [List.nodup_iff_pairwise_ne, List.pairwise_map]
  have h := (downFrom_desc min word.length).filter (abbreviable words word)
  refine List.Pairwise.imp_of_mem ?_ h
  intro a b ha hb hab he
  have h1 := ((mem_downFrom min word.length a).mp (List.mem_filter.mp ha).1).2
  have h2 := ((mem_downFrom min word.length b).mp (List.mem_filter.mp hb).1).2
  have := congrArg List.length he
  simp only [List.length_take] at this
  omega

theorem variations_nodup {c d : Cmd} (h : NamesOnce c d) : (variations c d).Nodup := by
  unfold variations
  obtain ⟨h1, h2, h3⟩ := h
  by_cases ha : d.data.abbreviateCommands = .val true
  · rw [if_pos ha, List.nodup_append]
    refine ⟨abbreviationsOf_nodup _ _ _, h1, ?_⟩
    intro w hw w' hw' he
    subst he
    rw [mem_abbreviationsOf] at hw
    obtain ⟨hp, -, he | hn⟩ := hw
    · subst he; exact h2 hw'
    · obtain ⟨e, he, hne, hpe⟩ := h3 ha w hw' hp
      exact hn e.data.prog (List.mem_map.mpr ⟨e, he, rfl⟩) hne hpe
  · rw [if_neg ha, List.singleton_append, List.nodup_cons]
    exact ⟨h2, h1⟩

/-! ## The path to a command -/

theorem mem_fishPathGo (cs : List Cmd) : ∀ (parents : List Cmd) (x : FishCond), x ∈ fishPathGo parents cs ↔
    ∃ pre p d post, cs = pre ++ p :: d :: post ∧
      x = .prim (.posContains false (positionalNum (parents ++ pre) (p.sub.getD 0)) (variations p d)) := by
  induction cs with
  | nil => intro parents x; simp [fishPathGo]
  | cons p cs ih =>
    intro parents x
    cases cs with
    | nil =>
      simp only [fishPathGo, List.not_mem_nil, false_iff]
      rintro ⟨pre, q, d, post, h, -⟩
      have := congrArg List.length h
      simp at this
      omega
    | cons c rest =>
      rw [fishPathGo, List.mem_cons, ih]
      constructor
      · rintro (rfl | ⟨pre, q, d, post, h, rfl⟩)
        · exact ⟨[], p, c, rest, rfl, by simp⟩
        · exact ⟨p :: pre, q, d, post, by rw [h]; rfl, by simp⟩
      · rintro ⟨pre, q, d, post, h, rfl⟩
        cases pre with
        | nil =>
          simp only [List.nil_append, List.cons.injEq] at h
          obtain ⟨rfl, rfl, rfl⟩ := h
          left; simp
        | cons y pre =>
          simp only [List.cons_append, List.cons.injEq] at h
          obtain ⟨rfl, h⟩ := h
          right
          exact ⟨pre, q, d, post, h, by simp⟩

/-- The commands on the way to a command. -/
theorem at_step {root : Cmd} {qs : List Cmd} {x : Cmd} (h : At root qs x) {pre : List Cmd} {p d : Cmd} {post : List Cmd}
    (he : qs ++ [x] = pre ++ p :: d :: post) : At root pre p ∧ d ∈ p.children := by
  have h1 := at_prefix h (pre, p) (by
    rw [he]
    have := chainEntries_mem [] pre p (d :: post)
    simpa using this)
  have h2 := at_prefix h (pre ++ [p], d) (by
    rw [he]
    have := chainEntries_mem [] (pre ++ [p]) d post
    simpa using this)
  refine ⟨h1, ?_⟩
  simp only at h2
  generalize hz : pre ++ [p] = z at h2
  cases h2 with
  | root => simp at hz
  | child _ hd =>
    have := List.append_inj' hz rfl
    simp at this
    rw [this.2]; exact hd

/-- A command of the walk at an index. -/
theorem posContains_holds (rx : Bool → Str → Str → Bool) (hid : List Str → Bool) (σ : QueryState) (parents : List Cmd) (n : Nat)
    (values : List Str) (hn : values.Nodup) :
    (FishCond.prim (.posContains false (positionalNum parents n) values)).holds (FishPrim.succeeds rx hid σ) = true ↔
      ∃ w, σ.positionals[positionalIndex parents n]? = some w ∧ w ∈ values := by
  have h0 : ((positionalNum parents n : Nat) : Int) ≠ 0 := by unfold positionalNum; omega
  have h1 : ¬ ((positionalNum parents n : Nat) : Int) < 0 := by omega
  have h2 : ¬ ((positionalNum parents n : Nat) : Int) - 1 < 0 := by unfold positionalNum; omega
  have h3 : (((positionalNum parents n : Nat) : Int) - 1).toNat = positionalIndex parents n := by unfold positionalNum; omega
  simp only [FishCond.holds, FishPrim.succeeds, QueryPrim.succeedsFish, h0, h1, h2, if_false, Bool.false_eq_true, h3]
  exact fishContains_option _ _ hn

/-- The conditions for the path of a command hold iff the command is on the way to the command reached. -/
theorem path_holds {root : Cmd} (hf : CleanFish root) {ps : List Str} {parents : List Cmd} {c : Cmd}
    (hr : Reached root ps parents c) {qs : List Cmd} {x : Cmd} (hx : At root qs x)
    (rx : Bool → Str → Str → Bool) (hid : List Str → Bool) (given : List (Str × Str)) :
    (∀ k ∈ fishPath qs x, k.holds (FishPrim.succeeds rx hid ⟨given, ps⟩) = true) ↔
      ∃ post, parents ++ [c] = qs ++ x :: post := by
  have hrM := (reached_iff hf.tree _ _ _).mp hr
  have hcM := hf.tree.toM
  have key : ∀ pre p d post, qs ++ [x] = pre ++ p :: d :: post →
      ((FishCond.prim (.posContains false (positionalNum pre (p.sub.getD 0)) (variations p d))).holds
        (FishPrim.succeeds rx hid ⟨given, ps⟩) = true ↔ ∃ n w, subSlot pre p = some n ∧ ps[n]? = some w ∧ w ∈ variations p d) := by
    intro pre p d post he
    obtain ⟨hp, hd⟩ := at_step hx he
    rw [posContains_holds _ _ _ _ _ _ (variations_nodup (hf.once _ _ hp _ hd))]
    have hs := hf.tree.slot _ _ hp (List.ne_nil_of_mem hd)
    obtain ⟨n, hn⟩ := Option.isSome_iff_exists.mp hs
    simp [subSlot, hn]
  constructor
  · intro h
    refine reached_unique hcM hrM hx ?_
    intro pre p d post he
    have h1 := h _ ((mem_fishPathGo _ [] _).mpr ⟨pre, p, d, post, he, rfl⟩)
    simp only [List.nil_append] at h1
    obtain ⟨n, w, h2, h3, h4⟩ := (key pre p d post he).mp h1
    exact ⟨n, h2, by rw [List.getD_eq_getElem?_getD, h3]; exact h4⟩
  · rintro ⟨post', hpost⟩ k hk
    obtain ⟨pre, p, d, post, he, rfl⟩ := (mem_fishPathGo _ [] _).mp hk
    simp only [List.nil_append]
    refine (key pre p d post he).mpr ?_
    refine reached_words hrM pre p d (post ++ post') ?_
    have : qs ++ x :: post' = (qs ++ [x]) ++ post' := by simp
    rw [hpost, this, he]; simp

/-! ## Single conditions -/

theorem notHas_holds (rx : Bool → Str → Str → Bool) (hid : List Str → Bool) (σ : QueryState) (ss : List Str) :
    (FishCond.not (.prim (.hasOption (uniq ss)))).holds (FishPrim.succeeds rx hid σ) = true ↔
      ∀ s ∈ ss, ∀ v, (s, v) ∉ σ.having := by
  simp only [FishCond.holds, FishPrim.succeeds, QueryPrim.succeedsFish, Bool.not_eq_true', List.any_eq_false]
  constructor
  · intro h s hs v hm
    exact h _ hm (by simpa using (C40_uniq_mem ss s).mpr hs)
  · rintro h ⟨s, v⟩ hm hc
    exact h s ((C40_uniq_mem ss s).mp (by simpa using hc)) v hm

theorem countEq_holds (rx : Bool → Str → Str → Bool) (hid : List Str → Bool) (σ : QueryState) (parents : List Cmd) (n : Nat) :
    (FishCond.prim (.posCount .eq ((positionalNum parents n : Int) - 1))).holds (FishPrim.succeeds rx hid σ) = true ↔
      σ.positionals.length = positionalIndex parents n := by
  simp only [FishCond.holds, FishPrim.succeeds, QueryPrim.succeedsFish, CmpOp.holds, beq_iff_eq, positionalNum]
  omega

theorem countGe_holds (rx : Bool → Str → Str → Bool) (hid : List Str → Bool) (σ : QueryState) (parents : List Cmd) (n : Nat) :
    (FishCond.prim (.posCount .ge ((positionalNum parents n : Int) - 1))).holds (FishPrim.succeeds rx hid σ) = true ↔
      positionalIndex parents n ≤ σ.positionals.length := by
  show decide ((σ.positionals.length : Int) ≥ _) = true ↔ _
  rw [decide_eq_true_iff, positionalNum]
  omega

/-! ## `when` -/

/-- The condition is an expression that Fish evaluates faithfully (see C09). -/
def WhenSafe (isRegex : Str → Bool) (w : Option Str) : Prop :=
  ∀ t, w = some t → t ≠ [] ∧ ∀ ts, parseWhen isRegex t = .ok ts → (∃ e, Denotes ts e) ∧ ∀ c, .cmd c ∈ ts → condSafeFish c

theorem genTokens_ok {α β} (g : α → Except Err (List (Tok β))) (hg : ∀ c, ∃ a, g c = .ok a) (ts : List (Tok α)) :
    ∃ r, genTokens g ts = .ok r := by
  induction ts with
  | nil => exact ⟨_, rfl⟩
  | cons t ts ih =>
    obtain ⟨r, hr⟩ := ih
    cases t with
    | cmd c =>
      obtain ⟨a, ha⟩ := hg c
      exact ⟨a ++ r, by simp [genTokens, ha, hr, bind, Except.bind]⟩
    | _ => simp [genTokens, hr, bind, Except.bind]

theorem getConditions_ok (cs : List FishCond) (ts : List (Tok Cond)) : ∃ texts, getConditions cs ts = .ok texts := by
  unfold getConditions
  cases h : ts.isEmpty with
  | true => exact ⟨_, rfl⟩
  | false =>
    simp only [Bool.false_eq_true, if_false]
    split
    · exact ⟨_, rfl⟩
    · rename_i e he
      obtain ⟨r, hr⟩ := genTokens_ok (fun c => (queryCond false c).map (·.map (fun t => match t with
        | .cmd p => .cmd (FishPrim.prim p) | .bang => .bang | .lpar => .lpar | .rpar => .rpar
        | .and => .and | .or => .or))) (fun c => by cases c <;> exact ⟨_, rfl⟩) ts
      cases he.symm.trans hr

open Classical in
/-- A `complete` command is active iff its conditions hold and its `when` is true. -/
theorem active_iff {isRegex : Str → Bool} {rx : Bool → Str → Str → Bool} {hid : List Str → Bool} {l : Line} {w : Option Str}
    (hw : WhenSafe isRegex w) {d : FishDef} (hd : whenTokens isRegex w = .ok d.when_) :
    d.active (FishPrim.succeeds rx hid ⟨l.given, l.positionals⟩) ↔
      (∀ k ∈ d.conds, k.holds (FishPrim.succeeds rx hid ⟨l.given, l.positionals⟩) = true) ∧ WhenTrueOf isRegex rx l w := by
  unfold FishDef.active WhenTrueOf
  cases w with
  | none =>
    simp only [whenTokens, Except.ok.injEq] at hd
    obtain ⟨texts, h1, h2⟩ := C09_fish_offers_no_when (FishPrim.succeeds rx hid ⟨l.given, l.positionals⟩) d.conds
    rw [← hd, h1]
    simp only [Except.ok.injEq, exists_eq_left', reduceCtorEq, false_implies, implies_true, and_true]
    exact h2
  | some t =>
    obtain ⟨hne, hp⟩ := hw t rfl
    have hpt : parseWhen isRegex t = .ok d.when_ := by
      cases t with
      | nil => exact absurd rfl hne
      | cons => exact hd
    obtain ⟨⟨e, he⟩, hs⟩ := hp _ hpt
    obtain ⟨texts, ht⟩ := getConditions_ok d.conds d.when_
    have h := C09_fish_offers_partial rx hid l d.conds d.when_ e he hs texts ht
    rw [ht]
    simp only [Except.ok.injEq, exists_eq_left', Option.some.injEq, forall_eq']
    refine h.trans (and_congr Iff.rfl ?_)
    constructor
    · intro hev
      exact ⟨d.when_, e, hpt, he, _, fun c => by simp, hev⟩
    · rintro ⟨ts, e', h1, h2, v, h3, h4⟩
      rw [hpt] at h1; cases h1
      have := denotes_unique he h2
      subst this
      have hv : v = fun c => decide (holdsTogether rx l c) := by
        funext c
        cases hvc : v c with
        | true => exact (decide_eq_true ((h3 c).mp hvc)).symm
        | false =>
          refine (decide_eq_false fun hh => ?_).symm
          rw [(h3 c).mpr hh] at hvc; cases hvc
      rw [hv] at h4; exact h4

end CC
