import Verif.Lemmas.WhenGen

namespace CC

open ShellGrammar WhenSpec
open Classical

theorem lower_nil {s : Str} : lower s = [] ↔ s = [] := by simp [lower]

theorem scanBack_any (options : List Str) (test : Str → Bool) (L : List (Str × Str)) :
    scanBack true options test L = true ↔ ∃ o w, (o, w) ∈ L ∧ o ∈ options ∧ test w = true := by
  induction L with
  | nil => simp [scanBack]
  | cons p rest ih =>
    obtain ⟨o, v⟩ := p
    simp only [scanBack, List.contains_iff_mem, if_true]
    by_cases ho : o ∈ options
    · by_cases hv : test v = true
      · simp only [ho, hv, if_true, true_iff]
        exact ⟨o, v, by simp, ho, hv⟩
      · simp only [ho, hv, if_true, Bool.false_eq_true, if_false, ih]
        constructor
        · rintro ⟨a, b, h1, h2, h3⟩; exact ⟨a, b, by simp [h1], h2, h3⟩
        · rintro ⟨a, b, h1, h2, h3⟩
          simp only [List.mem_cons, Prod.mk.injEq] at h1
          rcases h1 with ⟨rfl, rfl⟩ | h1
          · exact absurd h3 hv
          · exact ⟨a, b, h1, h2, h3⟩
    · simp only [ho, if_false, ih]
      constructor
      · rintro ⟨a, b, h1, h2, h3⟩; exact ⟨a, b, by simp [h1], h2, h3⟩
      · rintro ⟨a, b, h1, h2, h3⟩
        simp only [List.mem_cons, Prod.mk.injEq] at h1
        rcases h1 with ⟨rfl, rfl⟩ | h1
        · exact absurd h2 ho
        · exact ⟨a, b, h1, h2, h3⟩

theorem scanBack_last (options : List Str) (test : Str → Bool) (L : List (Str × Str)) :
    scanBack false options test L = true ↔
      ∃ o w, (L.filter (fun p => options.contains p.1)).head? = some (o, w) ∧ test w = true := by
  induction L with
  | nil => simp [scanBack]
  | cons p rest ih =>
    obtain ⟨o, v⟩ := p
    simp only [scanBack]
    by_cases ho : options.contains o = true
    · rw [List.filter_cons_of_pos (by simpa using ho)]
      simp only [ho, if_true, List.head?_cons, Option.some.injEq, Prod.mk.injEq]
      constructor
      · intro h; refine ⟨o, v, ⟨rfl, rfl⟩, ?_⟩; simpa using h
      · rintro ⟨_, _, ⟨rfl, rfl⟩, h⟩; simpa using h
    · simp only [ho, Bool.false_eq_true, if_false, ih]
      rw [List.filter_cons_of_neg (by simpa using ho)]

theorem scanBack_having (any : Bool) (options : List Str) (test : Str → Bool)
    (L : List (Str × Str)) :
    scanBack any options test L.reverse = true ↔
      ∃ w, test w = true ∧ (if any = true then ∃ o ∈ options, (o, w) ∈ L
        else ∃ o ∈ options, (L.filter (fun p => options.contains p.1)).getLast? = some (o, w)) := by
  cases any with
  | true =>
    rw [scanBack_any]
    simp only [List.mem_reverse, if_true]
    constructor
    · rintro ⟨o, w, h1, h2, h3⟩; exact ⟨w, h3, o, h2, h1⟩
    · rintro ⟨w, h3, o, h2, h1⟩; exact ⟨o, w, h1, h2, h3⟩
  | false =>
    rw [scanBack_last]
    simp only [List.filter_reverse, List.head?_reverse, Bool.false_eq_true, if_false]
    constructor
    · rintro ⟨o, w, h1, h2⟩
      refine ⟨w, h2, o, ?_, h1⟩
      have := List.mem_of_getLast? h1
      simp only [List.mem_filter, List.contains_iff_mem] at this
      exact this.2
    · rintro ⟨w, h2, o, _, h1⟩; exact ⟨o, w, h1, h2⟩

theorem queryFlags_args (opts vals : List Str) (nocase any : Bool) :
    queryFlags false false (queryArgs opts vals nocase any) =
      some (any, nocase, opts ++ ['-', '-'] :: vals) := by
  cases nocase <;> cases any <;> simp [queryArgs, queryFlags]

theorem splitAtDashes_append (opts vals : List Str) (h : ['-', '-'] ∉ opts) :
    splitAtDashes (opts ++ ['-', '-'] :: vals) = (opts, vals) := by
  induction opts with
  | nil => simp [splitAtDashes]
  | cons o os ih =>
    simp only [List.mem_cons, not_or] at h
    simp [splitAtDashes, Ne.symm h.1, ih h.2]

theorem getD_nil_mem {a : List Str} {i : Nat} {values : List Str} (h : [] ∉ values)
    (f : Str → Str) (hf : ∀ s, f s = [] ↔ s = []) (g : Str → Str) (hg : ∀ s, g s = [] ↔ s = []) :
    (values.map g).any (fun w => f ((a[i]?).getD []) == w) = true ↔
      ∃ p, a[i]? = some p ∧ ∃ v ∈ values, f p = g v := by
  simp only [List.any_map, List.any_eq_true, Function.comp_apply, beq_iff_eq]
  cases hi : a[i]? with
  | none =>
    simp only [Option.getD_none, reduceCtorEq, false_and, exists_false, iff_false]
    rintro ⟨v, hv, he⟩
    rw [(hf []).mpr rfl] at he
    exact h (((hg v).mp he.symm) ▸ hv)
  | some p => simp

/-- How the script's arrays reflect a command line: `varOf` gives the array of an option string. -/
structure BashView (varOf : Str → Str) (l : Line) (σ : BashState) : Prop where
  vars : ∀ o, σ.vars (varOf o) = valuesOf (fun a b => varOf a == varOf b) l o
  positionals : σ.positionals = l.positionals

/-- What `get_options_by_option_strings` and `capture_variable` guarantee: the arrays of exactly
the listed options. -/
def Resolves (varOf : Str → Str) (resolve : List Str → Except Err (List Str)) : Prop :=
  ∀ opts vars, resolve opts = .ok vars → ∀ v, v ∈ vars ↔ ∃ o ∈ opts, varOf o = v

/-- Conditions on which the Bash and Zsh code is faithful: values present, positional numbers
from 1, no empty value for a positional. -/
def condSafe : Cond → Prop
  | .optionIs opts vals _ _ => vals ≠ [] ∧ ['-', '-'] ∉ opts
  | .optionMatch opts _ _ _ => ['-', '-'] ∉ opts
  | .positionalContains _ n vals => 1 ≤ n ∧ [] ∉ vals
  | _ => True

theorem any_refs (σ : BashState) (vars : List Str) (any : Bool) (test : Str → Bool) :
    ((vars.map (fun x => (⟨x, any⟩ : VarRef))).flatMap
      (fun r => lastOrAll r.all (σ.vars r.var))).any test = true ↔
    ∃ x ∈ vars, ∃ w, test w = true ∧
      (if any = true then w ∈ σ.vars x else (σ.vars x).getLast? = some w) := by
  simp only [List.any_eq_true, List.mem_flatMap, List.mem_map]
  constructor
  · rintro ⟨w, ⟨r, ⟨x, hx, rfl⟩, hw⟩, ht⟩
    refine ⟨x, hx, w, ht, ?_⟩
    cases any <;> simpa [lastOrAll] using hw
  · rintro ⟨x, hx, w, ht, hw⟩
    refine ⟨w, ⟨_, ⟨x, hx, rfl⟩, ?_⟩, ht⟩
    cases any <;> simpa [lastOrAll] using hw

theorem exists_var {varOf : Str → Str} {opts vars : List Str}
    (h : ∀ v, v ∈ vars ↔ ∃ o ∈ opts, varOf o = v) (P : Str → Prop) :
    (∃ x ∈ vars, P x) ↔ ∃ o ∈ opts, P (varOf o) := by
  constructor
  · rintro ⟨x, hx, hp⟩
    obtain ⟨o, ho, rfl⟩ := (h x).mp hx
    exact ⟨o, ho, hp⟩
  · rintro ⟨o, ho, hp⟩
    exact ⟨_, (h _).mpr ⟨o, ho, rfl⟩, hp⟩

theorem bash_prim {varOf : Str → Str} {resolve : List Str → Except Err (List Str)}
    (hres : Resolves varOf resolve) (rx : Bool → Str → Str → Bool) {l : Line} {σ : BashState}
    (hv : BashView varOf l σ) (c : Cond) (hs : condSafe c) (a : List (Tok BashPrim))
    (ha : bashCond resolve c = .ok a) :
    ∃ e', DenotesAt .command a e' ∧
      e'.eval (BashPrim.succeeds rx σ) =
        decide (holdsEach (fun a b => varOf a == varOf b) rx l c) := by
  cases c with
  | optionIs opts vals nc any =>
    simp only [bashCond, bind, Except.bind] at ha
    cases hr : resolve opts with
    | error e => simp [hr] at ha
    | ok vars =>
      simp only [hr] at ha
      have hvars := hres opts vars hr
      -- value-wise truth
      have hval : ∀ v, BashPrim.succeeds rx σ (.arrayContains nc v
            (vars.map (fun x => (⟨x, any⟩ : VarRef)))) = true ↔
          ∃ o ∈ opts, ∃ w, sameText nc v w = true ∧
            (if any = true then w ∈ valuesOf (fun a b => varOf a == varOf b) l o
             else (valuesOf (fun a b => varOf a == varOf b) l o).getLast? = some w) := by
        intro v
        simp only [BashPrim.succeeds]
        rw [any_refs, exists_var hvars]
        simp only [hv.vars]
      have hall : (vals.map (fun v => BashPrim.arrayContains nc v
            (vars.map (fun x => (⟨x, any⟩ : VarRef))))).any (BashPrim.succeeds rx σ) =
          decide (holdsEach (fun a b => varOf a == varOf b) rx l (.optionIs opts vals nc any)) := by
        rw [Bool.eq_iff_iff, decide_eq_true_iff]
        simp only [List.any_map, List.any_eq_true, Function.comp_apply, hval, holdsEach]
        constructor
        · rintro ⟨v, hv, o, ho, w, h⟩; exact ⟨o, ho, v, hv, w, h⟩
        · rintro ⟨o, ho, v, hv, w, h⟩; exact ⟨v, hv, o, ho, w, h⟩
      split at ha
      · simp at ha
        subst ha
        refine ⟨_, .cmd _, ?_⟩
        rw [← hall]; simp [Expr.eval]
      · simp at ha
        subst ha
        obtain ⟨e, d, he⟩ := orJoin_denotes (vals.map (fun v => BashPrim.arrayContains nc v
            (vars.map (fun x => (⟨x, any⟩ : VarRef))))) (by simpa using hs.1)
            (BashPrim.succeeds rx σ)
        exact ⟨e, .group d, by rw [he, hall]⟩
  | optionMatch opts re nc any =>
    simp only [bashCond, bind, Except.bind] at ha
    cases hr : resolve opts with
    | error e => simp [hr] at ha
    | ok vars =>
      simp only [hr, Except.ok.injEq] at ha
      subst ha
      refine ⟨_, .cmd _, ?_⟩
      rw [Bool.eq_iff_iff, decide_eq_true_iff]
      simp only [Expr.eval, BashPrim.succeeds]
      rw [any_refs, exists_var (hres opts vars hr)]
      simp only [hv.vars, holdsEach]
  | hasOption opts =>
    simp only [bashCond, bind, Except.bind] at ha
    cases hr : resolve opts with
    | error e => simp [hr] at ha
    | ok vars =>
      simp only [hr, Except.ok.injEq] at ha
      subst ha
      refine ⟨_, .cmd _, ?_⟩
      rw [Bool.eq_iff_iff, decide_eq_true_iff]
      simp only [Expr.eval, BashPrim.succeeds, holdsEach, bne_iff_ne]
      rw [← Nat.pos_iff_ne_zero]
      have hpos : ∀ (L : List Nat), 0 < L.sum ↔ ∃ n ∈ L, 0 < n := by
        intro L
        induction L with
        | nil => simp
        | cons x xs ih => simp only [List.sum_cons, List.mem_cons, exists_eq_or_imp, ← ih]; omega
      rw [hpos]
      have := exists_var (hres opts vars hr) (fun v => 0 < (σ.vars v).length)
      have hm : (∃ n ∈ vars.map (fun v => (σ.vars v).length), 0 < n) ↔
          ∃ x ∈ vars, 0 < (σ.vars x).length := by
        simp only [List.mem_map]
        constructor
        · rintro ⟨_, ⟨x, hx, rfl⟩, h⟩; exact ⟨x, hx, h⟩
        · rintro ⟨x, hx, h⟩; exact ⟨_, ⟨x, hx, rfl⟩, h⟩
      rw [hm, this]
      simp only [hv.vars, valuesOf, List.length_map, List.length_pos_iff_exists_mem, List.mem_filter]
  | positionalCount op n =>
    simp only [bashCond, Except.ok.injEq] at ha
    subst ha
    refine ⟨_, .cmd _, ?_⟩
    rw [Bool.eq_iff_iff, decide_eq_true_iff]
    simp [Expr.eval, BashPrim.succeeds, holdsEach, hv.positionals]
  | positionalContains nc n vals =>
    simp only [bashCond, Except.ok.injEq] at ha
    subst ha
    refine ⟨_, .cmd _, ?_⟩
    obtain ⟨hn, hne⟩ := hs
    have hidx : bashIndex σ.positionals (n - 1) = (l.positionals[n.toNat - 1]?).getD [] := by
      have h1 : ¬ (n - 1 < 0) := by omega
      have h2 : (n - 1).toNat = n.toNat - 1 := by omega
      simp [bashIndex, h1, h2, hv.positionals]
    rw [Bool.eq_iff_iff, decide_eq_true_iff]
    simp only [Expr.eval, BashPrim.succeeds, holdsEach, hn, true_and, hidx, sameText]
    cases nc with
    | true =>
      have := getD_nil_mem (a := l.positionals) (i := n.toNat - 1) hne lower (fun _ => lower_nil)
        lower (fun _ => lower_nil)
      simpa using this
    | false =>
      have := getD_nil_mem (a := l.positionals) (i := n.toNat - 1) hne id (fun _ => Iff.rfl)
        id (fun _ => Iff.rfl)
      simpa using this

theorem query_option_is {l : Line} {σ : QueryState} (hh : σ.having = l.given)
    (opts vals : List Str) (nc any : Bool) (hd : ['-', '-'] ∉ opts)
    (test : Bool → List Str → Str → Bool) :
    queryOptionTest σ test (queryArgs opts vals nc any) = true ↔
      ∃ w, test nc vals w = true ∧ (if any = true then ∃ o ∈ opts, (o, w) ∈ l.given
        else ∃ o ∈ opts, (l.given.filter (fun p => opts.contains p.1)).getLast? = some (o, w)) := by
  simp only [queryOptionTest, queryFlags_args, splitAtDashes_append opts vals hd, hh]
  exact scanBack_having any opts _ l.given

theorem has_option_query {l : Line} {σ : QueryState} (hh : σ.having = l.given) (opts : List Str) :
    σ.having.any (fun p => opts.contains p.1) = true ↔ ∃ o ∈ opts, ∃ w, (o, w) ∈ l.given := by
  simp only [hh, List.any_eq_true, List.contains_iff_mem]
  constructor
  · rintro ⟨⟨o, w⟩, h1, h2⟩; exact ⟨o, h2, w, h1⟩
  · rintro ⟨o, h2, w, h1⟩; exact ⟨(o, w), h1, h2⟩

theorem zsh_prim (rx : Bool → Str → Str → Bool) {l : Line} {σ : QueryState}
    (hh : σ.having = l.given) (hp : σ.positionals = l.positionals)
    (c : Cond) (hs : condSafe c) (a : List (Tok QueryPrim)) (ha : queryCond true c = .ok a) :
    ∃ e', DenotesAt .command a e' ∧
      e'.eval (QueryPrim.succeedsZsh rx σ) = decide (holdsTogether rx l c) := by
  cases c with
  | optionIs opts vals nc any =>
    simp only [queryCond, Except.ok.injEq] at ha
    subst ha
    refine ⟨_, .cmd _, ?_⟩
    rw [Bool.eq_iff_iff, decide_eq_true_iff]
    simp only [Expr.eval, QueryPrim.succeedsZsh]
    rw [query_option_is hh _ _ _ _ hs.2]
    simp only [List.any_eq_true, holdsTogether]
    constructor
    · rintro ⟨w, ⟨v, hv, h⟩, h2⟩; exact ⟨v, hv, w, h, h2⟩
    · rintro ⟨v, hv, w, h, h2⟩; exact ⟨w, ⟨v, hv, h⟩, h2⟩
  | optionMatch opts re nc any =>
    simp only [queryCond, Except.ok.injEq] at ha
    subst ha
    refine ⟨_, .cmd _, ?_⟩
    rw [Bool.eq_iff_iff, decide_eq_true_iff]
    simp only [Expr.eval, QueryPrim.succeedsZsh]
    rw [query_option_is hh _ _ _ _ hs]
    simp only [holdsTogether]
  | hasOption opts =>
    simp only [queryCond, Except.ok.injEq] at ha
    subst ha
    refine ⟨_, .cmd _, ?_⟩
    rw [Bool.eq_iff_iff, decide_eq_true_iff]
    simp only [Expr.eval, QueryPrim.succeedsZsh]
    rw [has_option_query hh]
    simp only [holdsTogether]
  | positionalCount op n =>
    simp only [queryCond, Except.ok.injEq] at ha
    subst ha
    refine ⟨_, .cmd _, ?_⟩
    rw [Bool.eq_iff_iff, decide_eq_true_iff]
    simp [Expr.eval, QueryPrim.succeedsZsh, holdsTogether, hp]
  | positionalContains nc n vals =>
    simp only [queryCond, Except.ok.injEq] at ha
    subst ha
    refine ⟨_, .cmd _, ?_⟩
    obtain ⟨hn, hne⟩ := hs
    have hidx : zshIndex σ.positionals n = (l.positionals[n.toNat - 1]?).getD [] := by
      have h0 : ¬ n = 0 := by omega
      have h1 : ¬ (n - 1 < 0) := by omega
      have h3 : ¬ (n < 0) := by omega
      have h2 : (n - 1).toNat = n.toNat - 1 := by omega
      simp [zshIndex, h0, h1, h3, h2, hp]
    rw [Bool.eq_iff_iff, decide_eq_true_iff]
    simp only [Expr.eval, QueryPrim.succeedsZsh, holdsTogether, hn, true_and, hidx, sameText]
    cases nc with
    | true =>
      have := getD_nil_mem (a := l.positionals) (i := n.toNat - 1) hne lower (fun _ => lower_nil)
        lower (fun _ => lower_nil)
      simpa using this
    | false =>
      have := getD_nil_mem (a := l.positionals) (i := n.toNat - 1) hne id (fun _ => Iff.rfl)
        id (fun _ => Iff.rfl)
      simpa using this

/-- Conditions on which the Fish code is faithful: positional numbers from 1, and no value of a
positional listed twice (for an absent positional Fish compares the first value with the
others). -/
def condSafeFish : Cond → Prop
  | .optionIs opts vals _ _ => vals ≠ [] ∧ ['-', '-'] ∉ opts
  | .optionMatch opts _ _ _ => ['-', '-'] ∉ opts
  | .positionalContains nc n vals => 1 ≤ n ∧ (if nc = true then (vals.map lower).Nodup else vals.Nodup)
  | _ => True

theorem fishContains_option (o : Option Str) (vals : List Str) (hn : vals.Nodup) :
    fishContains (o.toList ++ vals) = true ↔ ∃ p, o = some p ∧ p ∈ vals := by
  cases o with
  | none =>
    cases vals with
    | nil => simp [fishContains]
    | cons v vs => simp at hn; simp [fishContains, hn.1]
  | some p => simp [fishContains]

theorem fish_prim (rx : Bool → Str → Str → Bool) {l : Line} {σ : QueryState}
    (hh : σ.having = l.given) (hp : σ.positionals = l.positionals)
    (c : Cond) (hs : condSafeFish c) (a : List (Tok QueryPrim)) (ha : queryCond false c = .ok a) :
    ∃ e', DenotesAt .command a e' ∧
      e'.eval (QueryPrim.succeedsFish rx σ) = decide (holdsTogether rx l c) := by
  cases c with
  | optionIs opts vals nc any =>
    simp only [queryCond, Except.ok.injEq] at ha
    subst ha
    refine ⟨_, .cmd _, ?_⟩
    rw [Bool.eq_iff_iff, decide_eq_true_iff]
    simp only [Expr.eval, QueryPrim.succeedsFish]
    rw [query_option_is hh _ _ _ _ hs.2]
    simp only [List.any_eq_true, holdsTogether]
    constructor
    · rintro ⟨w, ⟨v, hv, h⟩, h2⟩; exact ⟨v, hv, w, h, h2⟩
    · rintro ⟨v, hv, w, h, h2⟩; exact ⟨w, ⟨v, hv, h⟩, h2⟩
  | optionMatch opts re nc any =>
    simp only [queryCond, Except.ok.injEq] at ha
    subst ha
    refine ⟨_, .cmd _, ?_⟩
    rw [Bool.eq_iff_iff, decide_eq_true_iff]
    simp only [Expr.eval, QueryPrim.succeedsFish]
    rw [query_option_is hh _ _ _ _ hs]
    simp only [holdsTogether]
  | hasOption opts =>
    simp only [queryCond, Except.ok.injEq] at ha
    subst ha
    refine ⟨_, .cmd _, ?_⟩
    rw [Bool.eq_iff_iff, decide_eq_true_iff]
    simp only [Expr.eval, QueryPrim.succeedsFish]
    rw [has_option_query hh]
    simp only [holdsTogether]
  | positionalCount op n =>
    simp only [queryCond, Except.ok.injEq] at ha
    subst ha
    refine ⟨_, .cmd _, ?_⟩
    rw [Bool.eq_iff_iff, decide_eq_true_iff]
    simp [Expr.eval, QueryPrim.succeedsFish, holdsTogether, hp]
  | positionalContains nc n vals =>
    simp only [queryCond, Except.ok.injEq] at ha
    subst ha
    refine ⟨_, .cmd _, ?_⟩
    obtain ⟨hn, hne⟩ := hs
    have h0 : ¬ n = 0 := by omega
    have h1 : ¬ (n - 1 < 0) := by omega
    have h3 : ¬ (n < 0) := by omega
    have h2 : (n - 1).toNat = n.toNat - 1 := by omega
    rw [Bool.eq_iff_iff, decide_eq_true_iff]
    simp only [Expr.eval, QueryPrim.succeedsFish, holdsTogether, hn, true_and, sameText, h0, h1, h2,
      h3, if_false, hp, Bool.and_false, Bool.false_eq_true]
    cases nc with
    | true =>
      simp only [if_true] at hne ⊢
      rw [List.map_append]
      have := fishContains_option ((l.positionals[n.toNat - 1]?).map lower) _ hne
      cases hx : l.positionals[n.toNat - 1]? with
      | none => simpa [hx] using this
      | some p =>
        simp only [hx, Option.map_some, Option.toList_some] at this
        simp only [Option.toList_some, List.map_cons, List.map_nil, this, Option.some.injEq,
          exists_eq_left', List.mem_map, beq_iff_eq]
        constructor
        · rintro ⟨v, hv, h⟩; exact ⟨v, hv, h.symm⟩
        · rintro ⟨v, hv, h⟩; exact ⟨v, hv, h.symm⟩
    | false =>
      simp only [Bool.false_eq_true, if_false] at hne ⊢
      have := fishContains_option (l.positionals[n.toNat - 1]?) _ hne
      rw [this]
      simp

end CC
