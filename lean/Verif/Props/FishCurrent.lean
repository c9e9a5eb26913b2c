import Verif.Props.FishQuery
import Verif.Model.FishCurrent
import Verif.Spec.Typing
/-!
# C89: the argument that is being typed, in Fish
-/

namespace CC

theorem takesArgument_iff (kind : Str → Option ArgKind) (s : Str) : takesArgument (kind s) = true ↔ Takes kind s := by
  unfold Takes
  cases kind s with
  | none => simp [takesArgument]
  | some k => cases k <;> simp [takesArgument]

theorem scan_none (kind : Str → Option ArgKind) (w rest : Str) (h : ∀ c ∈ rest, ¬ Takes kind ['-', c]) :
    fishCurrentScan kind w rest = w := by
  induction rest with
  | nil => rfl
  | cons c rest ih =>
    have hc : takesArgument (kind ['-', c]) = false := by
      have := h c (by simp)
      rw [← takesArgument_iff] at this
      simpa using this
    rw [fishCurrentScan, hc]
    exact ih (fun d hd => h d (by simp [hd]))

theorem scan_flags (kind : Str → Option ArgKind) (w cs : Str) (hf : FlagsOk kind cs) (c : Char) (v : Str)
    (ht : Takes kind ['-', c]) : fishCurrentScan kind w (cs ++ c :: v) = v := by
  induction cs with
  | nil => rw [List.nil_append, fishCurrentScan, if_pos ((takesArgument_iff _ _).mpr ht)]
  | cons d cs ih =>
    have := hf d (by simp)
    rw [List.cons_append, fishCurrentScan, this]
    exact ih (fun x hx => hf x (by simp [hx]))

/-- Only names without `=` and letters are looked up. -/
theorem scan_congr {g g' : Str → Option ArgKind} (h : ∀ s, LookedUp s → g s = g' s) (w rest : Str) :
    fishCurrentScan g w rest = fishCurrentScan g' w rest := by
  induction rest with
  | nil => rfl
  | cons c rest ih => rw [fishCurrentScan, fishCurrentScan, h _ (lookedUp_letter c), ih]

theorem currentArg_congr {g g' : Str → Option ArgKind} (h : ∀ s, LookedUp s → g s = g' s) (short pending : Bool)
    (w : Str) : fishCurrentArg short g pending w = fishCurrentArg short g' pending w := by
  unfold fishCurrentArg
  rw [h _ (Or.inl (beforeEq_no_eq w)), scan_congr h]

/-- Commands whose option strings have neither `=` nor spaces, with the parts of the helper that they need. -/
def FishTableOk (long short old : Bool) (cmds : List (List FishComp × List Opt)) : Prop :=
  ∀ d ∈ cmds, ∀ e ∈ tableOf d.2, PlainOption e.1 ∧ enabled long short old (qstyle e.1) = true

theorem kindAt_mem {subcommands : Bool} {cmds : List (List FishComp × List Opt)} {ps : List Str} {s : Str}
    {k : ArgKind} (hk : fishKindAt subcommands cmds ps s = some k) : ∃ d ∈ cmds, (s, k) ∈ tableOf d.2 := by
  unfold fishKindAt at hk
  obtain ⟨d, hd, hk⟩ := List.exists_of_findSome?_eq_some hk
  refine ⟨d, by simpa using (List.mem_filter.mp hd).1, ?_⟩
  unfold kindIn at hk
  cases hf : (tableOf d.2).find? (fun e => e.1 == s) with
  | none => rw [hf] at hk; simp at hk
  | some x =>
    rw [hf] at hk
    have h1 := List.find?_some hf
    have h2 := List.mem_of_find?_eq_some hf
    simp at h1 hk
    rw [← h1, ← hk]; exact h2

theorem takes_mem {subcommands : Bool} {cmds : List (List FishComp × List Opt)} {ps : List Str} {s : Str}
    (h : Takes (fishKindAt subcommands cmds ps) s) : ∃ k, ∃ d ∈ cmds, (s, k) ∈ tableOf d.2 := by
  rcases h with h | h
  · exact ⟨_, kindAt_mem h⟩
  · exact ⟨_, kindAt_mem h⟩

theorem fishCurrent_eq (long short old subcommands : Bool) (cmds : List (List FishComp × List Opt))
    (hp : FishTableOk long short old cmds) (its : List Item) (e : Ending)
    (hi : ItemsValid (fishKindAt subcommands cmds) [] its)
    (hv : e.Valid (fishKindAt subcommands cmds (its.flatMap Item.positionals))) (w : Str) :
    fishCurrent long short old subcommands (fishDefs cmds) (its.flatMap Item.words ++ e.words) w =
      fishCurrentArg short (fishKindAt subcommands cmds (its.flatMap Item.positionals ++ e.positionals))
        (!(e.incomplete.getD []).isEmpty) w := by
  unfold fishCurrent
  rw [C58_parse long short old subcommands cmds hp its e hi hv]
  exact currentArg_congr (fun s hs => fishGetOption_eq subcommands cmds (fun d hd e he => (hp d hd e he).1) _ s hs) _ _ _

/-- **C89 (argument in a word of its own)** Behind an option whose argument is missing, the argument that is
completed is the whole word, whatever it looks like. -/
theorem C89_argument (long short old subcommands : Bool) (cmds : List (List FishComp × List Opt))
    (hp : FishTableOk long short old cmds) (its : List Item) (e : Ending)
    (hi : ItemsValid (fishKindAt subcommands cmds) [] its)
    (hv : e.Valid (fishKindAt subcommands cmds (its.flatMap Item.positionals))) (he : e.incomplete ≠ none) (w : Str) :
    fishCurrent long short old subcommands (fishDefs cmds) (its.flatMap Item.words ++ e.words) w = w := by
  rw [fishCurrent_eq long short old subcommands cmds hp its e hi hv]
  have : (e.incomplete.getD []).isEmpty = false := by
    cases e with
    | done => simp [Ending.incomplete] at he
    | dashes ws => simp [Ending.incomplete] at he
    | word n =>
      have hn : LongName n ∨ OldName n := hv.1
      rcases hn with ⟨⟨c, cs, rfl⟩, -⟩ | ⟨⟨c, d, cs, rfl, -⟩, -⟩ <;> simp [Ending.incomplete]
    | cluster cs c => simp [Ending.incomplete]
  rw [this]
  rfl

/-- **C89 (argument in the word of its option)** In `--name=VALUE`, `-name=VALUE` and `-xyzVALUE`, the argument that
is completed is `VALUE`, if the options that are known at that place take it so. -/
theorem C89_value (long short old subcommands : Bool) (cmds : List (List FishComp × List Opt))
    (hp : FishTableOk long short old cmds) (its : List Item)
    (hi : ItemsValid (fishKindAt subcommands cmds) [] its) (t : Typing) (hw : t.word ≠ t.argument)
    (hv : t.Valid (fishKindAt subcommands cmds (its.flatMap Item.positionals))) :
    fishCurrent long short old subcommands (fishDefs cmds) (its.flatMap Item.words) t.word = t.argument := by
  have h0 := fishCurrent_eq long short old subcommands cmds hp its .done hi trivial t.word
  simp only [Ending.words, List.append_nil, Ending.positionals, Ending.incomplete, Option.getD_none, List.isEmpty_nil,
    Bool.not_true] at h0
  rw [h0]
  cases t with
  | operand w => exact absurd rfl hw
  | value n v =>
    have hq : '=' ∉ n := by rcases hv.1 with h | h <;> exact h.2
    unfold fishCurrentArg
    simp only [Typing.word, Typing.argument, beforeEq_append hq, afterEq_append hq, (takesArgument_iff _ _).mpr hv.2]
    simp
  | attached cs c v =>
    obtain ⟨h1, h2, h3, h4⟩ := hv
    have hs : short = true := by
      obtain ⟨k, d, hd, hm⟩ := takes_mem h3
      have := hp d hd _ hm
      have hc : c ≠ '-' := by
        intro e
        subst e
        exact absurd rfl this.1.2.1
      have h5 := this.2
      rw [qstyle_short hc] at h5
      exact h5
    subst hs
    unfold fishCurrentArg
    simp only [Typing.word, Typing.argument, Bool.false_eq_true, if_false]
    rw [if_neg]
    · simp only [if_true, List.tail_cons]
      exact scan_flags _ _ _ h2 _ _ h3
    · intro h
      simp only [Bool.and_eq_true] at h
      obtain ⟨p, r, he, hpn⟩ := split_first_eq (by simpa using h.1 : '=' ∈ ('-' :: (cs ++ c :: v)))
      have hk := h4.1 p r he hpn
      rw [he, beforeEq_append hpn, hk] at h
      simp [takesArgument] at h

/-- **C89 (operand, partial)** An operand is completed as a whole, if no letter of it from the second on is an
option with an argument. Behind `--`, it also must not look like `--name=VALUE`. Missing: operands with such letters,
see `C89_operand_cut`. -/
theorem C89_operand_partial (long short old subcommands : Bool) (cmds : List (List FishComp × List Opt))
    (hp : FishTableOk long short old cmds) (its : List Item) (e : Ending)
    (hi : ItemsValid (fishKindAt subcommands cmds) [] its) (he : e = .done ∨ ∃ ws, e = .dashes ws) (w : Str)
    (hv : (Typing.operand w).Valid (fishKindAt subcommands cmds (its.flatMap Item.positionals)) ∨
      ((∃ ws, e = .dashes ws) ∧ ∀ n v, w = n ++ '=' :: v → '=' ∉ n →
        ¬ Takes (fishKindAt subcommands cmds (its.flatMap Item.positionals ++ e.positionals)) n))
    (hl : ∀ c ∈ w.tail, ¬ Takes (fishKindAt subcommands cmds (its.flatMap Item.positionals ++ e.positionals)) ['-', c]) :
    fishCurrent long short old subcommands (fishDefs cmds) (its.flatMap Item.words ++ e.words) w =
      (Typing.operand w).argument := by
  have hev : e.Valid (fishKindAt subcommands cmds (its.flatMap Item.positionals)) := by
    rcases he with rfl | ⟨ws, rfl⟩ <;> trivial
  rw [fishCurrent_eq long short old subcommands cmds hp its e hi hev]
  have hinc : e.incomplete.getD [] = [] := by rcases he with rfl | ⟨ws, rfl⟩ <;> rfl
  rw [hinc]
  unfold fishCurrentArg
  simp only [Typing.argument, List.isEmpty_nil, Bool.not_true, Bool.false_eq_true, if_false]
  rw [if_neg]
  · rw [scan_none _ _ _ hl]
    simp
  · intro h
    simp only [Bool.and_eq_true] at h
    obtain ⟨p, r, hpr, hpn⟩ := split_first_eq (by simpa using h.1 : '=' ∈ w)
    have h2 := h.2
    rw [hpr, beforeEq_append hpn, takesArgument_iff] at h2
    rcases hv with hv | ⟨-, hv⟩
    · obtain ⟨k, d, hd, hm⟩ := takes_mem h2
      obtain ⟨⟨c, cs, hc⟩, -⟩ := (hp d hd _ hm).1
      simp only at hc
      rw [hc] at hpr
      exact hv c (cs ++ '=' :: r) (by rw [hpr]; rfl)
    · exact hv p r hpr hpn h2

/-! ## A case, and cases where the property fails -/

/-- A program with the flag `-v`, the option `-o FILE`, and the option `--color` with an optional argument. -/
def currentOptions : List Opt :=
  [{ strings := [S "-v"] }, { strings := [S "-o", S "--output"], complete := some [.str (S "file")] },
   { strings := [S "--color"], complete := some [.str (S "none")], optionalArg := true }]

/-- The hypotheses are met. -/
theorem C89_example : FishTableOk true true false [([.any], currentOptions)] ∧
    ItemsValid (fishKindAt false [([.any], currentOptions)]) [] [.flags (S "v"), .pos (S "in")] ∧
    (Typing.attached (S "v") 'o' (S "a,b")).Valid (fishKindAt false [([.any], currentOptions)] [S "in"]) ∧
    fishCurrent true true false false (fishDefs [([.any], currentOptions)]) [S "-v", S "in"] (S "-voa,b") = S "a,b" ∧
    fishCurrent true true false false (fishDefs [([.any], currentOptions)]) [S "-v", S "in"] (S "--color=al") = S "al" ∧
    fishCurrent true true false false (fishDefs [([.any], currentOptions)]) [S "--output"] (S "foo") = S "foo" ∧
    fishCurrent true true false false (fishDefs [([.any], currentOptions)]) [S "-v"] (S "bar,ba") = S "bar,ba" := by
  refine ⟨?_, ?_, ?_, by decide +kernel, by decide +kernel, by decide +kernel, by decide +kernel⟩
  · intro d hd e he
    simp only [List.mem_singleton] at hd
    subst hd
    have : e ∈ [(S "-v", ArgKind.flag), (S "-o", .required), (S "--output", .required), (S "--color", .optional)] := he
    simp only [List.mem_cons, List.not_mem_nil, or_false] at this
    rcases this with rfl | rfl | rfl | rfl
    · exact ⟨⟨⟨_, _, rfl⟩, by decide, by decide, by decide⟩, by decide⟩
    · exact ⟨⟨⟨_, _, rfl⟩, by decide, by decide, by decide⟩, by decide⟩
    · exact ⟨⟨⟨_, _, rfl⟩, by decide, by decide, by decide⟩, by decide⟩
    · exact ⟨⟨⟨_, _, rfl⟩, by decide, by decide, by decide⟩, by decide⟩
  · refine ⟨⟨by decide, by decide, ?_, ?_, ?_⟩, ?_, trivial⟩
    · intro c hc
      have : c = 'v' := by simpa [S] using hc
      subst this; decide
    · intro p r h
      have := congrArg ('=' ∈ ·) h
      simp [S] at this
    · intro _ h; exact absurd rfl h
    · intro c cs h
      have : ['i', 'n'] = '-' :: c :: cs := h
      simp at this
  · refine ⟨by decide, ?_, Or.inl (by decide), ?_, ?_⟩
    · intro c hc
      have : c = 'v' := by simpa [S] using hc
      subst this; decide
    · intro p r h
      have := congrArg ('=' ∈ ·) h
      simp [S] at this
    · intro _ _; decide

/-- The letters of an operand are looked up as if it were a cluster of options: with an option `-o FILE`, the
operand `foo,ba` is taken for `-f`, `-o` with the argument `o,ba`. So too behind `--`. -/
theorem C89_operand_cut :
    fishCurrent true true false false (fishDefs [([.any], currentOptions)]) [S "-v"] (S "foo,ba") = S "o,ba" ∧
    fishCurrent true true false false (fishDefs [([.any], currentOptions)]) [S "-v", S "--"] (S "foo,ba") = S "o,ba" := by
  decide +kernel

/-- Behind `--`, an operand that looks like an option is taken for one. -/
theorem C89_dashes_cut :
    fishCurrent true true false false (fishDefs [([.any], currentOptions)]) [S "--"] (S "--output=x") = S "x" := by
  decide +kernel

/-- While `-o=x` is typed, its argument is `x`; as a finished word, its argument is `=x`. -/
theorem C89_short_equals :
    fishCurrent true true false false (fishDefs [([.any], currentOptions)]) [] (S "-o=x") = S "x" ∧
    (fishQueryInit true true false false (fishDefs [([.any], currentOptions)]) [S "-o=x"]).having =
      [(S "-o", S "=x")] := by
  decide +kernel

end CC
