import Verif.Props.When
import Verif.Model.FishConds
import Verif.Spec.CliSpec
/-!
# C09: conditions for Fish, C10: validation of primitive conditions
-/

namespace CC

open ShellGrammar WhenSpec

/-! ## C09 -/

/-- Fish offers a completion iff every `-n` text succeeds. -/
def fishOffers (v : FishPrim → Bool) (texts : List (List (Tok FishPrim))) : Prop :=
  ∀ t ∈ texts, run v t = some true

/-- Truth of a condition object. -/
def FishCond.holds (v : FishPrim → Bool) : FishCond → Bool
  | .prim p => v (.prim p)
  | .hidden os => v (.hidden os)
  | .not c => !c.holds v

theorem fishCond_run (v : FishPrim → Bool) (c : FishCond) :
    ∃ e, DenotesAt .command c.code e ∧ e.eval v = c.holds v := by
  induction c with
  | prim p => exact ⟨_, .cmd _, rfl⟩
  | hidden os => exact ⟨_, .cmd _, rfl⟩
  | not c ih =>
    obtain ⟨e, d, h⟩ := ih
    exact ⟨_, .not d, by simp [Expr.eval, h, FishCond.holds]⟩

theorem optimizeLoop_perm (cs : List FishCond) :
    ((optimizeLoop cs).2.1 ++ ((optimizeLoop cs).1 ++ ((optimizeLoop cs).2.2.1 ++
      (optimizeLoop cs).2.2.2))).Perm cs := by
  induction cs with
  | nil => exact .nil
  | cons c cs ih =>
    simp only [optimizeLoop]
    split
    · exact (List.perm_middle).trans (ih.cons c)
    · split
      · exact ih.cons c
      · split
        · refine (List.Perm.append_left _ List.perm_middle).trans ?_
          exact (List.perm_middle).trans (ih.cons c)
        · refine (List.Perm.append_left _ (List.Perm.append_left _ List.perm_middle)).trans ?_
          refine (List.Perm.append_left _ List.perm_middle).trans ?_
          exact (List.perm_middle).trans (ih.cons c)

/-- **C09**: the reordering loses, duplicates and invents nothing. -/
theorem C09_reorder_perm (cs : List FishCond) : (optimizedConditions cs).Perm cs := by
  have := optimizeLoop_perm cs
  simpa [optimizedConditions] using this

/-- **C09**: the reordering is stable: of any two conditions of the same class the earlier stays
earlier. -/
theorem C09_reorder_stable (cs : List FishCond) :
    (optimizedConditions cs).filter FishCond.isPosContains = cs.filter FishCond.isPosContains ∧
    (optimizedConditions cs).filter FishCond.isPosNum = cs.filter FishCond.isPosNum ∧
    (optimizedConditions cs).filter FishCond.isHasOption = cs.filter FishCond.isHasOption := by
  have h : ∀ cs, (optimizeLoop cs).1 = cs.filter FishCond.isPosContains ∧
      (optimizeLoop cs).2.1 = cs.filter FishCond.isPosNum ∧
      (optimizeLoop cs).2.2.1 = cs.filter FishCond.isHasOption ∧
      (optimizeLoop cs).2.2.2 = cs.filter (fun c =>
        !c.isPosContains && !c.isPosNum && !c.isHasOption) := by
    intro cs
    induction cs with
    | nil => simp [optimizeLoop]
    | cons c cs ih =>
      simp only [optimizeLoop]
      cases c with
      | prim p =>
        cases p <;> simp [FishCond.isPosContains, FishCond.isPosNum, FishCond.isHasOption,
          ih, List.filter_cons]
      | hidden os => simp [FishCond.isPosContains, FishCond.isPosNum, FishCond.isHasOption, ih,
          List.filter_cons]
      | not c => simp [FishCond.isPosContains, FishCond.isPosNum, FishCond.isHasOption, ih]
  have excl : ∀ c : FishCond, (c.isPosContains = true → c.isPosNum = false ∧ c.isHasOption = false) ∧
      (c.isPosNum = true → c.isHasOption = false) := by
    intro c
    cases c with
    | prim p => cases p <;> simp [FishCond.isPosContains, FishCond.isPosNum, FishCond.isHasOption]
    | hidden os => simp [FishCond.isPosContains, FishCond.isPosNum]
    | not c => simp [FishCond.isPosContains, FishCond.isPosNum]
  obtain ⟨h1, h2, h3, h4⟩ := h cs
  simp only [optimizedConditions, h1, h2, h3, h4, List.filter_append, List.filter_filter]
  have e0 : ∀ (p q : FishCond → Bool), (∀ c, (p c && q c) = false) →
      cs.filter (fun c => p c && q c) = [] := by
    intro p q hp; rw [List.filter_eq_nil_iff]; intro a _; simp [hp a]
  have other := fun (p : FishCond → Bool) =>
    e0 p (fun c => !c.isPosContains && !c.isPosNum && !c.isHasOption)
  refine ⟨?_, ?_, ?_⟩
  · rw [e0 FishCond.isPosContains FishCond.isPosNum, e0 FishCond.isPosContains FishCond.isHasOption, other FishCond.isPosContains]
    · simp
    all_goals
      intro c; have := excl c; revert this
      cases c.isPosContains <;> cases c.isPosNum <;> cases c.isHasOption <;> simp
  · rw [e0 FishCond.isPosNum FishCond.isPosContains, e0 FishCond.isPosNum FishCond.isHasOption, other FishCond.isPosNum]
    · simp
    all_goals
      intro c; have := excl c; revert this
      cases c.isPosContains <;> cases c.isPosNum <;> cases c.isHasOption <;> simp
  · rw [e0 FishCond.isHasOption FishCond.isPosContains, e0 FishCond.isHasOption FishCond.isPosNum, other FishCond.isHasOption]
    · simp
    all_goals
      intro c; have := excl c; revert this
      cases c.isPosContains <;> cases c.isPosNum <;> cases c.isHasOption <;> simp

theorem fishCond_run_iff (v : FishPrim → Bool) (c : FishCond) :
    run v c.code = some (c.holds v) := by
  obtain ⟨e, d, h⟩ := fishCond_run v c
  simp [run, parse_complete (.pipe d), h]

open Classical in
/-- **C09** (partial: positional numbers from 1, no value listed twice for a positional, meaning
of `holdsTogether`). Fish offers the completion iff all condition objects hold, in whatever order
they were added, and the `when` expression is true of the command line. -/
theorem C09_fish_offers_partial (rx : Bool → Str → Str → Bool) (hidden : List Str → Bool) (l : Line)
    (cs : List FishCond) (ts : List (Tok Cond)) (e : Expr Cond) (hd : Denotes ts e)
    (hs : ∀ c, .cmd c ∈ ts → condSafeFish c) (texts : List (List (Tok FishPrim)))
    (ht : getConditions cs ts = .ok texts) :
    let v := FishPrim.succeeds rx hidden ⟨l.given, l.positionals⟩
    fishOffers v texts ↔
      ((∀ c ∈ cs, c.holds v = true) ∧ e.eval (fun c => decide (holdsTogether rx l c)) = true) := by
  intro v
  have hne : ts.isEmpty = false := by
    have := (check_iff ts).mpr ⟨e, hd⟩
    cases ts with
    | nil => simp [checkSyntax, checkSyntaxGo] at this
    | cons => rfl
  simp only [getConditions, hne, Bool.false_eq_true, if_false] at ht
  split at ht
  · rename_i code hcode
    simp at ht
    subst ht
    obtain ⟨e', d, hv⟩ := gen_denotes hd v (fun c => decide (holdsTogether rx l c)) hcode (by
      intro c a hm hg
      -- the renaming of atoms keeps the shape: a single command
      cases hq : queryCond false c with
      | error err => simp [hq, Except.map] at hg
      | ok a0 =>
        obtain ⟨e0, d0, h0⟩ := fish_prim rx (l := l) (σ := ⟨l.given, l.positionals⟩) rfl rfl c
          (hs c hm) a0 hq
        rw [hq] at hg
        cases c <;> (
          simp only [queryCond, Except.ok.injEq] at hq
          subst hq
          cases d0
          simp [Except.map] at hg
          subst hg
          exact ⟨_, .cmd _, by simpa [Expr.eval, v, FishPrim.succeeds] using h0⟩))
    have hrun : run v code = some (e.eval (fun c => decide (holdsTogether rx l c))) := by
      simp only [run, parse_complete d, Option.map_some, hv]
    simp only [fishOffers, List.mem_append, List.mem_map, List.mem_singleton]
    constructor
    · intro h
      refine ⟨fun c hc => ?_, ?_⟩
      · have := h c.code (Or.inl ⟨c, (C09_reorder_perm cs).mem_iff.mpr hc, rfl⟩)
        rw [fishCond_run_iff] at this; simpa using this
      · have := h code (Or.inr rfl)
        rw [hrun] at this; simpa using this
    · rintro ⟨h1, h2⟩ t ht
      rcases ht with ⟨c, hc, rfl⟩ | rfl
      · rw [fishCond_run_iff, h1 c ((C09_reorder_perm cs).mem_iff.mp hc)]
      · rw [hrun, h2]
  · cases ht

/-- **C09** without `when`: exactly the conjunction of the condition objects. -/
theorem C09_fish_offers_no_when (v : FishPrim → Bool) (cs : List FishCond) :
    ∃ texts, getConditions cs [] = .ok texts ∧ (fishOffers v texts ↔ ∀ c ∈ cs, c.holds v = true) := by
  refine ⟨_, rfl, ?_⟩
  simp only [fishOffers, List.mem_map]
  constructor
  · intro h c hc
    have := h c.code ⟨c, (C09_reorder_perm cs).mem_iff.mpr hc, rfl⟩
    rw [fishCond_run_iff] at this; simpa using this
  · rintro h t ⟨c, hc, rfl⟩
    rw [fishCond_run_iff, h c ((C09_reorder_perm cs).mem_iff.mp hc)]

/-- The hypothesis on repeated values is needed: with no positional typed,
`positional_contains 1 x x` is true in Fish. -/
theorem C09_repeated_value_false (rx : Bool → Str → Str → Bool) :
    QueryPrim.succeedsFish rx ⟨[], []⟩ (.posContains false 1 [S "x", S "x"]) = true := rfl

example : ∃ texts, getConditions [.not (.hidden [S "--foo"]), .prim (.posCount .ge 2)]
    [.cmd (.hasOption [S "-f"]), .or, .bang, .cmd (.positionalContains true 1 [S "a", S "b"])]
      = .ok texts ∧ texts.length = 3 ∧ condSafeFish (.positionalContains true 1 [S "a", S "b"]) :=
  ⟨_, rfl, rfl, by decide, by decide⟩

/-! ## C10 -/

theorem isValidOptionString_iff (o : Str) : isValidOptionString o = true ↔ IsOption o := by
  unfold isValidOptionString IsOption
  split
  · rename_i c cs
    simp only [Bool.and_eq_true, List.all_eq_true, Bool.not_eq_true', bne_iff_ne, ne_eq,
      Bool.and_eq_false_iff, beq_eq_false_iff_ne, List.isEmpty_eq_false_iff]
    constructor
    · rintro ⟨h1, h2⟩
      refine ⟨?_, c, cs, rfl, h1⟩
      intro h; injection h with _ h; injection h with h h'; subst h; subst h'; simp at h2
    · rintro ⟨h1, c', cs', h2, h3⟩
      injection h2 with _ h2; injection h2 with h2 h2'; subst h2; subst h2'
      refine ⟨h3, ?_⟩
      by_cases hc : c = '-'
      · right; rintro rfl; exact h1 (by rw [hc])
      · left; exact hc
  · rename_i h
    simp only [Bool.false_eq_true, false_iff]
    rintro ⟨_, c, cs, h2, _⟩
    exact h c cs h2

/-- Leading words `nocase` and `any` in any letter case. -/
def IsFlag (f : Str) : Prop := lower f = S "nocase" ∨ lower f = S "any"

theorem option_not_flag {o : Str} (h : IsOption o) : ¬ IsFlag o := by
  obtain ⟨_, c, cs, rfl, _⟩ := h
  have e : asciiLower '-' = '-' := by decide
  rintro (h | h)
  · simp only [lower, List.map_cons, e] at h
    have := congrArg List.head? h
    revert this; simp [S]
  · simp only [lower, List.map_cons, e] at h
    have := congrArg List.head? h
    revert this; simp [S]

theorem takeFlags_spec (nc any : Bool) (args : List Str) :
    ∃ flags rest, args = flags ++ rest ∧ (∀ f ∈ flags, IsFlag f) ∧
      (∀ a as, rest = a :: as → ¬ IsFlag a) ∧
      takeFlags nc any args = (nc || flags.any (fun f => lower f == S "nocase"),
        any || flags.any (fun f => lower f == S "any"), rest) := by
  induction args generalizing nc any with
  | nil => exact ⟨[], [], rfl, by simp, by simp, by simp [takeFlags]⟩
  | cons a as ih =>
    simp only [takeFlags]
    by_cases h1 : lower a = S "nocase"
    · obtain ⟨flags, rest, e, hf, hr, ht⟩ := ih true any
      refine ⟨a :: flags, rest, by simp [e], ?_, hr, ?_⟩
      · intro f hf'; simp at hf'; rcases hf' with rfl | hf'
        · exact Or.inl h1
        · exact hf f hf'
      · have : (S "nocase" == S "any") = false := by decide
        simp [h1, ht, this]
    · by_cases h2 : lower a = S "any"
      · obtain ⟨flags, rest, e, hf, hr, ht⟩ := ih nc true
        refine ⟨a :: flags, rest, by simp [e], ?_, hr, ?_⟩
        · intro f hf'; simp at hf'; rcases hf' with rfl | hf'
          · exact Or.inr h2
          · exact hf f hf'
        · have : (S "any" == S "nocase") = false := by decide
          have h3 : S "any" ≠ S "nocase" := by decide
          simp [h2, ht, this, h3]
      · refine ⟨[], a :: as, rfl, by simp, ?_, by simp [h1, h2]⟩
        intro b bs hb; simp at hb; rw [← hb.1]; rintro (h | h) <;> contradiction

theorem takeFlags_exact (flags rest : List Str) (hf : ∀ f ∈ flags, IsFlag f)
    (hr : ∀ a as, rest = a :: as → ¬ IsFlag a) (nc any : Bool) :
    takeFlags nc any (flags ++ rest) = (nc || flags.any (fun f => lower f == S "nocase"),
        any || flags.any (fun f => lower f == S "any"), rest) := by
  induction flags generalizing nc any with
  | nil =>
    cases rest with
    | nil => simp [takeFlags]
    | cons a as =>
      have := hr a as rfl
      simp only [IsFlag, not_or] at this
      simp [takeFlags, this]
  | cons f fs ih =>
    have ih' := fun nc any => ih (fun g hg => hf g (by simp [hg])) nc any
    have h3 : S "any" ≠ S "nocase" := by decide
    have h4 : (S "any" == S "nocase") = false := by decide
    have h5 : (S "nocase" == S "any") = false := by decide
    rcases hf f (by simp) with h | h
    · simp [takeFlags, h, ih', h5]
    · simp [takeFlags, h, ih', h3, h4]

theorem splitAtDashes_spec (args : List Str) :
    ['-', '-'] ∉ (splitAtDashes args).1 ∧
    ((splitAtDashes args).2 = [] ∨ args = (splitAtDashes args).1 ++ ['-', '-'] :: (splitAtDashes args).2) := by
  induction args with
  | nil => simp [splitAtDashes]
  | cons a as ih =>
    simp only [splitAtDashes]
    split
    · rename_i h; subst h; simp
    · rename_i h
      refine ⟨?_, ?_⟩
      · simp only [List.mem_cons, not_or]; exact ⟨fun h' => h h'.symm, ih.1⟩
      · rcases ih.2 with h2 | h2
        · exact Or.inl h2
        · right; simp only [List.cons_append, List.cons.injEq, true_and]; exact h2

/-- **C10, `option_is`**: accepted exactly in the documented shape. -/
theorem C10_option_is (args : List Str) (c : Cond) :
    parseOptionIs args = .ok c ↔
      ∃ flags opts vals, args = flags ++ opts ++ ['-', '-'] :: vals ∧
        (∀ f ∈ flags, IsFlag f) ∧ opts ≠ [] ∧ (∀ o ∈ opts, IsOption o) ∧ vals ≠ [] ∧
        c = .optionIs opts vals (flags.any (fun f => lower f == S "nocase"))
          (flags.any (fun f => lower f == S "any")) := by
  constructor
  · intro h
    obtain ⟨flags, rest, e, hf, hr, ht⟩ := takeFlags_spec false false args
    simp only [parseOptionIs, ht, Bool.false_or] at h
    split at h
    · cases h
    · rename_i hval
      split at h
      · cases h
      · rename_i hopts
        split at h
        · cases h
        · rename_i hvals
          simp at h
          have hs := splitAtDashes_spec rest
          have hne : (splitAtDashes rest).2 ≠ [] := by simpa using hvals
          refine ⟨flags, (splitAtDashes rest).1, (splitAtDashes rest).2, ?_, hf, by simpa using hopts,
            ?_, hne, h.symm⟩
          · rw [List.append_assoc, ← (hs.2.resolve_left hne)]; exact e
          · intro o ho
            rw [← isValidOptionString_iff]
            simp at hval
            exact hval o ho
  · rintro ⟨flags, opts, vals, rfl, hf, hopts, hopt, hvals, rfl⟩
    have ht := takeFlags_exact flags (opts ++ ['-', '-'] :: vals) hf (by
      intro a as h
      cases opts with
      | nil => exact absurd rfl hopts
      | cons o os => simp at h; rw [← h.1]; exact option_not_flag (hopt o (by simp))) false false
    have hd : ['-', '-'] ∉ opts := fun h => (hopt _ h).1 rfl
    simp only [parseOptionIs, List.append_assoc, ht, splitAtDashes_append opts vals hd, Bool.false_or]
    have : (opts.any fun o => !isValidOptionString o) = false := by
      simp only [List.any_eq_false, Bool.not_eq_true, Bool.not_eq_false']
      intro o ho; exact (isValidOptionString_iff o).mpr (hopt o ho)
    simp [this, hopts, hvals]

/-- **C10, `option_match`**: accepted exactly in the documented shape (the regex is one non-empty
word that the external check accepts). -/
theorem C10_option_match (isRegex : Str → Bool) (args : List Str) (c : Cond) :
    parseOptionMatch isRegex args = .ok c ↔
      ∃ flags opts regex, args = flags ++ opts ++ [['-', '-'], regex] ∧
        (∀ f ∈ flags, IsFlag f) ∧ opts ≠ [] ∧ (∀ o ∈ opts, IsOption o) ∧ regex ≠ [] ∧
        isRegex regex = true ∧
        c = .optionMatch opts regex (flags.any (fun f => lower f == S "nocase"))
          (flags.any (fun f => lower f == S "any")) := by
  constructor
  · intro h
    obtain ⟨flags, rest, e, hf, hr, ht⟩ := takeFlags_spec false false args
    have hs := splitAtDashes_spec rest
    simp only [parseOptionMatch, ht, Bool.false_or] at h
    split at h
    · cases h
    · split at h
      · cases h
      · rename_i hval
        split at h
        · cases h
        · rename_i hopts
          split at h
          · rename_i r hr2
            split at h
            · cases h
            · rename_i hr3
              split at h
              · cases h
              · rename_i hr4
                simp at h
                have hne : (splitAtDashes rest).2 ≠ [] := by simp [hr2]
                have h5 := hs.2.resolve_left hne
                rw [hr2] at h5
                refine ⟨flags, (splitAtDashes rest).1, r, ?_, hf, by simpa using hopts, ?_,
                  by simpa using hr3, by simpa using hr4, h.symm⟩
                · rw [List.append_assoc, ← h5]; exact e
                · intro o ho
                  rw [← isValidOptionString_iff]
                  simp at hval
                  exact hval o ho
          · cases h
  · rintro ⟨flags, opts, regex, rfl, hf, hopts, hopt, hre, hrx, rfl⟩
    have ht := takeFlags_exact flags (opts ++ [['-', '-'], regex]) hf (by
      intro a as h
      cases opts with
      | nil => exact absurd rfl hopts
      | cons o os => simp at h; rw [← h.1]; exact option_not_flag (hopt o (by simp))) false false
    have hd : ['-', '-'] ∉ opts := fun h => (hopt _ h).1 rfl
    simp only [parseOptionMatch, List.append_assoc, ht, splitAtDashes_append opts [regex] hd,
      Bool.false_or]
    have : (opts.any fun o => !isValidOptionString o) = false := by
      simp only [List.any_eq_false, Bool.not_eq_true, Bool.not_eq_false']
      intro o ho; exact (isValidOptionString_iff o).mpr (hopt o ho)
    simp [this, hopts, hre, hrx]

/-- **C10, `has_option`**: any non-empty list of words. (The words are not checked.) -/
theorem C10_has_option (args : List Str) (c : Cond) :
    parseHasOption args = .ok c ↔ args ≠ [] ∧ c = .hasOption args := by
  simp only [parseHasOption]
  split
  · rename_i h; simp at h; simp [h]
  · rename_i h; simp at h; simp [h, eq_comm]

/-- **C10, `positional_count`**: exactly one of the six operators and one integer. -/
theorem C10_positional_count (args : List Str) (c : Cond) :
    parsePositionalCount args = .ok c ↔
      ∃ (op : CmpOp) (n : Str) (i : Int), args = [op.text, n] ∧ pyInt n = some i ∧
        c = .positionalCount op i := by
  have hop : ∀ o op, parseCmpOp o = some op ↔ o = op.text := by
    intro o op
    constructor
    · intro h
      have := List.find?_some h
      exact (beq_iff_eq.mp this).symm
    · rintro rfl; cases op <;> decide
  constructor
  · intro h
    unfold parsePositionalCount at h
    split at h
    · cases h
    · cases h
    · rename_i o rest hlen
      split at h
      · cases h
      · rename_i op hp
        split at h
        · cases h
        · rename_i n tl
          split at h
          · cases h
          · rename_i i hi
            simp at h
            cases tl with
            | nil => exact ⟨op, n, i, by rw [(hop o op).mp hp], hi, h.symm⟩
            | cons x xs => exact absurd rfl (hlen n x xs)
  · rintro ⟨op, n, i, rfl, hi, rfl⟩
    have := (hop op.text op).mpr rfl
    simp [parsePositionalCount, this, hi]

/-- **C10, `positional_contains`**: an optional `-i`, an integer, at least one value. -/
theorem C10_positional_contains (args : List Str) (c : Cond) :
    parsePositionalContains args = .ok c ↔
      ∃ (nocase : Bool) (n : Str) (i : Int) (vals : List Str),
        args = (if nocase then [['-', 'i']] else []) ++ n :: vals ∧ pyInt n = some i ∧ vals ≠ [] ∧
        c = .positionalContains nocase i vals := by
  have hi : pyInt ['-', 'i'] = none := by decide
  constructor
  · intro h
    simp only [parsePositionalContains] at h
    by_cases hn : args.head? = some ['-', 'i']
    · obtain ⟨tl, rfl⟩ : ∃ tl, args = ['-', 'i'] :: tl := by
        cases args with
        | nil => simp at hn
        | cons a as => simp at hn; exact ⟨as, by rw [hn]⟩
      simp at h
      split at h
      · cases h
      · rename_i n values
        split at h
        · cases h
        · rename_i i hpi
          split at h
          · cases h
          · rename_i hv
            simp at h
            exact ⟨true, n, i, values, rfl, hpi, by simpa using hv, h.symm⟩
    · have hb : (args.head? == some ['-', 'i']) = false := by simpa using hn
      simp only [hb, Bool.false_eq_true, if_false] at h
      split at h
      · cases h
      · rename_i n values
        split at h
        · cases h
        · rename_i i hpi
          split at h
          · cases h
          · rename_i hv
            simp at h
            exact ⟨false, n, i, values, rfl, hpi, by simpa using hv, h.symm⟩
  · rintro ⟨nocase, n, i, vals, rfl, hpi, hv, rfl⟩
    cases nocase with
    | true => simp [parsePositionalContains, hpi, hv]
    | false =>
      have hne : n ≠ ['-', 'i'] := by rintro rfl; rw [hi] at hpi; cases hpi
      simp [parsePositionalContains, hpi, hv, hne]

/-- **C10**: no other command name is accepted. -/
theorem C10_commands (isRegex : Str → Bool) (ws : List Str) (c : Cond)
    (h : parseCond isRegex ws = .ok c) :
    ∃ cmd args, ws = cmd :: args ∧ cmd ∈ [S "option_is", S "option_match", S "has_option",
      S "positional_count", S "positional_contains"] := by
  cases ws with
  | nil => simp [parseCond] at h
  | cons cmd args =>
    refine ⟨cmd, args, rfl, ?_⟩
    simp only [parseCond] at h
    repeat' split at h
    all_goals first | (cases h; done) | (simp_all; done) | skip

example : parseOptionIs [S "NoCase", S "any", S "-f", S "--foo", S "--", S "x", S "--"] =
    .ok (.optionIs [S "-f", S "--foo"] [S "x", S "--"] true true) := rfl

/-! ## C08/C09 end to end from the `when` text -/

theorem parseCond_safe (isRegex : Str → Bool) (ws : List Str) (c : Cond)
    (h : parseCond isRegex ws = .ok c)
    (hp : ∀ nc n vals, c = .positionalContains nc n vals → 1 ≤ n ∧ [] ∉ vals) : condSafe c := by
  cases ws with
  | nil => simp [parseCond] at h
  | cons cmd args =>
    simp only [parseCond] at h
    split at h
    · obtain ⟨_, opts, vals, _, _, _, ho, hv, rfl⟩ := (C10_option_is _ _).mp h
      exact ⟨hv, fun hd => (ho _ hd).1 rfl⟩
    split at h
    · obtain ⟨_, opts, vals, _, _, _, ho, hv, _, rfl⟩ := (C10_option_match _ _ _).mp h
      exact fun hd => (ho _ hd).1 rfl
    split at h
    · obtain ⟨_, rfl⟩ := (C10_has_option _ _).mp h; trivial
    split at h
    · obtain ⟨_, _, _, _, _, rfl⟩ := (C10_positional_count _ _).mp h; trivial
    split at h
    · obtain ⟨nc, n, i, vals, _, _, _, rfl⟩ := (C10_positional_contains _ _).mp h
      exact hp nc i vals rfl
    · cases h

theorem replaceCommands_mem (isRegex : Str → Bool) (ts : List (Tok (List Str))) (r : List (Tok Cond))
    (h : replaceCommands isRegex ts = .ok r) :
    ∀ c, .cmd c ∈ r → ∃ ws, parseCond isRegex ws = .ok c := by
  induction ts generalizing r with
  | nil => simp [replaceCommands] at h; subst h; simp
  | cons t ts ih =>
    intro c hc
    simp only [replaceCommands, bind, Except.bind] at h
    cases hr : replaceCommands isRegex ts with
    | error e => cases t <;> (simp [hr] at h; try (split at h <;> cases h))
    | ok r' =>
      cases t with
      | cmd ws =>
        cases hp : parseCond isRegex ws with
        | error e => simp [hp, Except.map] at h
        | ok c0 =>
          simp [hp, hr, Except.map] at h
          subst h
          simp at hc
          rcases hc with rfl | hc
          · exact ⟨ws, hp⟩
          · exact ih r' hr c hc
      | _ =>
        simp [hr] at h
        subst h
        simp at hc
        exact ih r' hr c hc

/-- Forget the commands. -/
def shape {α : Type} : Tok α → Tok Unit
  | .bang => .bang | .lpar => .lpar | .rpar => .rpar | .and => .and | .or => .or
  | .cmd _ => .cmd ()

theorem expectsOperand_shape {α : Type} (last : Option (Tok α)) :
    expectsOperand (last.map shape) = expectsOperand last := by
  cases last with
  | none => rfl
  | some t => cases t <;> rfl

theorem checkSyntaxGo_shape {α : Type} (ts : List (Tok α)) (last : Option (Tok α)) (par : Int) :
    checkSyntaxGo (last.map shape) par (ts.map shape) = checkSyntaxGo last par ts := by
  induction ts generalizing last par with
  | nil => cases last <;> rfl
  | cons t ts ih =>
    cases t <;> simp only [List.map_cons, shape, checkSyntaxGo, expectsOperand_shape]
    all_goals first
      | (rw [← ih]; rfl)

theorem replaceCommands_shape (isRegex : Str → Bool) (ts : List (Tok (List Str)))
    (r : List (Tok Cond)) (h : replaceCommands isRegex ts = .ok r) :
    r.map shape = ts.map shape := by
  induction ts generalizing r with
  | nil => simp [replaceCommands] at h; subst h; rfl
  | cons t ts ih =>
    simp only [replaceCommands, bind, Except.bind] at h
    cases hr : replaceCommands isRegex ts with
    | error e => cases t <;> (simp [hr] at h; try (split at h <;> cases h))
    | ok r' =>
      have := ih r' hr
      cases t with
      | cmd ws =>
        cases hp : parseCond isRegex ws with
        | error e => simp [hp, Except.map] at h
        | ok c0 =>
          simp [hp, hr, Except.map] at h
          subst h; simp [shape, this]
      | _ => simp [hr] at h; subst h; simp [shape, this]

/-- What a successfully parsed `when` text is. -/
theorem parseWhen_checked (isRegex : Str → Bool) (s : Str) (ts : List (Tok Cond))
    (hw : parseWhen isRegex s = .ok ts) :
    checkSyntax ts = .ok () ∧ ∀ c, .cmd c ∈ ts → ∃ ws, parseCond isRegex ws = .ok c := by
  simp only [parseWhen] at hw
  split at hw
  · cases hw
  · rename_i raw hraw
    refine ⟨?_, replaceCommands_mem isRegex _ _ hw⟩
    have hsh := replaceCommands_shape isRegex _ _ hw
    have h1 := checkSyntaxGo_shape ts none 0
    have h2 := checkSyntaxGo_shape raw none 0
    rw [hsh] at h1
    simp only [Option.map_none] at h1 h2
    have h3 : checkSyntax raw = .ok () := by
      simp only [shellParse] at hraw
      split at hraw
      · cases hraw
      · split at hraw
        · cases hraw
        · rename_i hck; simp at hraw; rw [← hraw]; exact hck
    unfold checkSyntax at h3 ⊢
    rw [← h1, h2, h3]

open Classical in
/-- **C08, from the text, Bash** (partial: the two shapes that the syntax check misses are
excluded, as are positional numbers below 1 and empty values of positionals). Parse any `when`
text and generate Bash code: the code succeeds exactly if the expression is true. -/
theorem C08_bash_text_partial (isRegex : Str → Bool) (s : Str) (ts : List (Tok Cond))
    (hw : parseWhen isRegex s = .ok ts)
    (h1 : noJuxtaposition ts = true) (h2 : endsComplete ts = true)
    (hp : ∀ nc n vals, .cmd (.positionalContains nc n vals) ∈ ts → 1 ≤ n ∧ [] ∉ vals)
    (varOf : Str → Str) (resolve : List Str → Except Err (List Str))
    (hres : Resolves varOf resolve) (rx : Bool → Str → Str → Bool) (l : Line) (σ : BashState)
    (hv : BashView varOf l σ) (code : List (Tok BashPrim)) (hc : bashGenerate resolve ts = .ok code) :
    ∃ e, Denotes ts e ∧ run (BashPrim.succeeds rx σ) code =
      some (e.eval (fun c => decide (holdsEach (fun a b => varOf a == varOf b) rx l c))) := by
  obtain ⟨hck, hmem⟩ := parseWhen_checked isRegex s ts hw
  obtain ⟨e, he⟩ := (check_iff ts).mp ⟨hck, h1, h2⟩
  refine ⟨e, he, (C08_bash_partial varOf resolve hres rx l σ hv ts e he ?_ code hc).1⟩
  intro c hm
  obtain ⟨ws, hws⟩ := hmem c hm
  exact parseCond_safe isRegex ws c hws (by rintro nc n vals rfl; exact hp nc n vals hm)

open Classical in
/-- **C08, from the text, Zsh** (partial as for Bash). -/
theorem C08_zsh_text_partial (isRegex : Str → Bool) (s : Str) (ts : List (Tok Cond))
    (hw : parseWhen isRegex s = .ok ts)
    (h1 : noJuxtaposition ts = true) (h2 : endsComplete ts = true)
    (hp : ∀ nc n vals, .cmd (.positionalContains nc n vals) ∈ ts → 1 ≤ n ∧ [] ∉ vals)
    (rx : Bool → Str → Str → Bool) (l : Line) :
    ∃ e code, Denotes ts e ∧ zshGenerate ts = .ok code ∧
      run (QueryPrim.succeedsZsh rx ⟨l.given, l.positionals⟩) code =
        some (e.eval (fun c => decide (holdsTogether rx l c))) := by
  obtain ⟨hck, hmem⟩ := parseWhen_checked isRegex s ts hw
  obtain ⟨e, he⟩ := (check_iff ts).mp ⟨hck, h1, h2⟩
  obtain ⟨code, hc⟩ := C08_zsh_total ts
  refine ⟨e, code, he, hc, (C08_zsh_partial rx l ts e he ?_ code hc).1⟩
  intro c hm
  obtain ⟨ws, hws⟩ := hmem c hm
  exact parseCond_safe isRegex ws c hws (by rintro nc n vals rfl; exact hp nc n vals hm)

/-- The hypotheses of the two theorems above are met by a text. -/
example : ∃ (s : Str) (ts : List (Tok Cond)), parseWhen (fun _ => true) s = .ok ts ∧
    noJuxtaposition ts = true ∧ endsComplete ts = true ∧ ts.length = 4 := by
  refine ⟨renderCommands [.cmd [S "has_option", S "-f"], .or, .bang,
    .cmd [S "option_is", S "--foo", S "--", S "a b"]],
    [.cmd (.hasOption [S "-f"]), .or, .bang, .cmd (.optionIs [S "--foo"] [S "a b"] false false)],
    ?_, rfl, rfl, rfl⟩
  unfold parseWhen
  have h := C06_parse_render [.cmd [S "has_option", S "-f"], .or, .bang,
    .cmd [S "option_is", S "--foo", S "--", S "a b"]] _
    (.or (.pipe (.cmd _)) (.not (.cmd _)))
    (by intro ws h; simp at h; rcases h with rfl | rfl <;> simp)
  rw [h]; rfl

end CC
