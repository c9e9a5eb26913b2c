import Verif.Spec.ArgparseSpec
import Verif.Lemmas.Glob
import Verif.Props.CliOptions
import Verif.Lemmas.Validator
/-!
# C32: converting an argparse parser
-/

namespace CC

theorem bind_ok {α β : Type} {x : Except Err α} {f : α → Except Err β} {r : β} (h : x >>= f = .ok r) :
    ∃ a, x = .ok a ∧ f a = .ok r := by
  cases x with
  | error e => cases h
  | ok a => exact ⟨a, rfl, h⟩

/-! ## One action -/

theorem argComplete_ok {a : ArgAction} {r : Option (List Val)} (h : argComplete a = .ok r) :
    (a.takesArgument ∧ ∃ v, r = some v ∧ v ≠ [] ∧ CompletesWith a v) ∨ (¬ a.takesArgument ∧ r = none) := by
  have key : ∀ k, a.kind = k → (k = .store ∨ k = .extend ∨ k = .append) →
      (if truthyList a.complete then Except.ok a.complete
        else Except.ok (some (choicesComplete a.choices)) : Except Err (Option (List Val))) = .ok r →
      ∃ v, r = some v ∧ v ≠ [] ∧ CompletesWith a v := by
    intro k _ _ h
    split at h
    · next ht =>
      cases hc : a.complete with
      | none => rw [hc] at ht; cases ht
      | some v =>
        rw [hc] at h ht
        have hv : v ≠ [] := by
          intro he; subst he; cases ht
        cases h
        exact ⟨v, rfl, hv, .own hc hv⟩
    · next ht =>
      have hn : a.complete = none ∨ a.complete = some [] := by
        cases hc : a.complete with
        | none => exact .inl rfl
        | some v =>
          cases v with
          | nil => exact .inr rfl
          | cons x xs => rw [hc] at ht; exact absurd rfl ht
      cases h
      refine ⟨_, rfl, ?_, ?_⟩
      · unfold choicesComplete
        split
        · simp
        · split
          · unfold rangeTuple; split <;> simp
          · simp
        · split <;> simp
      · unfold choicesComplete
        split
        · next hc => exact .nothing hn (.inl hc)
        · next s e st hc =>
          split
          · next hr => exact .range hn hc hr
          · next hr => exact .nothing hn (.inr (.inr ⟨s, e, st, hc, by simpa using hr⟩))
        · next items hc =>
          split
          · next he =>
            have : items = [] := by simpa using he
            subst this
            exact .nothing hn (.inr (.inl hc))
          · next he => exact .values hn hc (by simpa using he)
  unfold argComplete at h
  unfold ArgAction.takesArgument
  cases hk : a.kind <;> rw [hk] at h <;> first
    | (left; refine ⟨by simp, key _ hk (by simp) h⟩)
    | (right; cases h; simp; done)
    | cases h

theorem argComplete_isOk (a : ArgAction) :
    (∃ r, argComplete a = .ok r) ↔ a.kind ≠ .booleanOptional ∧ a.kind ≠ .other := by
  unfold argComplete
  cases a.kind <;> simp <;> split <;> exact ⟨_, rfl⟩

theorem orStr_shown (a : ArgAction) : orStr a.metavar a.dest = a.shownName := by
  unfold orStr ArgAction.shownName
  cases a.metavar with
  | none => rfl
  | some s => simp

theorem argFinal_iff (a : ArgAction) :
    argFinal a = true ↔ a.kind = .help ∨ a.kind = .version ∨ a.final = true := by
  unfold argFinal
  cases a.kind <;> simp

theorem argRepeatable_iff (n : Nargs) :
    argRepeatable n = false ↔ n = .none ∨ n = .num 1 ∨ n = .str (S "?") := by
  cases n with
  | none => simp [argRepeatable]
  | num n => simp [argRepeatable]
  | str s =>
    simp only [argRepeatable]
    constructor
    · intro h
      split at h
      · cases h
      · split at h
        · next hq => exact .inr (.inr (by rw [hq]))
        · cases h
    · rintro (h | h | h)
      · cases h
      · cases h
      · cases h; decide

theorem argOption_ok {a : ArgAction} {o : Opt} (h : argOption a = .ok o) :
    OptionOf a o ∧ o.groups = none := by
  unfold argOption at h
  obtain ⟨r, hr, h⟩ := bind_ok h
  unfold Opt.init at h
  by_cases hchk : (argOptionOf a r).check = true
  · rw [if_pos hchk] at h
    cases h
    have hc := argComplete_ok hr
    refine ⟨⟨rfl, ?_, ?_, ?_, ?_, rfl, argFinal_iff a, ?_, ?_, rfl, rfl, rfl, rfl⟩, rfl⟩
    · rcases hc with ⟨ht, v, rfl, _, _⟩ | ⟨ht, rfl⟩
      · simp [argOptionOf, ht]
      · simp [argOptionOf, ht]
    · intro v hv
      rcases hc with ⟨ht, w, rfl, _, hw⟩ | ⟨ht, rfl⟩
      · cases hv; exact hw
      · cases hv
    · rcases hc with ⟨ht, v, rfl, hne, _⟩ | ⟨ht, rfl⟩
      · simp [argOptionOf, truthyList, hne, orStr_shown]
      · simp [argOptionOf, truthyList]
    · simp [argOptionOf]
    · simp [argOptionOf]
    · simp [argOptionOf]
  · rw [if_neg hchk] at h
    cases h

theorem argPositional_ok {n : Nat} {a : ArgAction} {p : Pos} (h : argPositional n a = .ok p) :
    PositionalOf a p ∧ p.number = n := by
  unfold argPositional at h
  obtain ⟨r, hr, h⟩ := bind_ok h
  unfold Pos.init at h
  split at h
  · cases h
    have hc := argComplete_ok hr
    refine ⟨⟨?_, by rw [← orStr_shown], argRepeatable_iff _, rfl, rfl, rfl, rfl⟩, rfl⟩
    rcases hc with ⟨ht, v, rfl, hne, hw⟩ | ⟨ht, rfl⟩
    · left
      refine ⟨ht, ?_⟩
      cases v with
      | nil => exact absurd rfl hne
      | cons x xs => exact hw
    · right
      exact ⟨ht, rfl⟩
  · cases h

/-! ## The loop -/

/-- Positionals carry consecutive numbers. -/
def NumberedFrom : Nat → List Pos → Prop
  | _, [] => True
  | n, p :: ps => p.number = n ∧ NumberedFrom (n + 1) ps

theorem numberedFrom_iff (ps : List Pos) : ∀ n, NumberedFrom n ps ↔
    ∀ i (h : i < ps.length), ps[i].number = n + i := by
  induction ps with
  | nil => intro n; simp [NumberedFrom]
  | cons p ps ih =>
    intro n
    simp only [NumberedFrom, ih]
    constructor
    · rintro ⟨h0, h⟩ i hi
      cases i with
      | zero => simpa using h0
      | succ i =>
        have := h i (by simpa using hi)
        simp only [List.getElem_cons_succ]
        omega
    · intro h
      refine ⟨h 0 (Nat.succ_pos _), fun i hi => ?_⟩
      have := h (i + 1) (by simpa using hi)
      simp only [List.getElem_cons_succ] at this
      omega

theorem highestNumber_append (ps : List Pos) (p : Pos) :
    highestNumber (ps ++ [p]) = max (highestNumber ps) p.number := by
  simp [highestNumber]

/-- Two subparsers actions cannot be converted; neither can one for a command that has one. -/
theorem argItems_ok : ∀ (items : ArgItems) (n : Nat) (c c' : Cmd),
    highestNumber c.data.positionals = n → (c.sub = none → c.children = []) →
    argItems items n c = .ok c' →
    (∃ os ps, c'.data = { c.data with options := c.data.options ++ os, positionals := c.data.positionals ++ ps } ∧
      All2 (fun a o => OptionOf a o ∧ o.groups = none) (items.acts.filter (·.isOption)) os ∧
      All2 PositionalOf (items.acts.filter (fun a => !a.isOption)) ps ∧ NumberedFrom (n + 1) ps) ∧
    ((items.subActions = [] ∧ c'.sub = c.sub ∧ c'.children = c.children) ∨
     (∃ choices helps, items.subActions = [(choices, helps)] ∧ c.sub = none ∧
       c'.sub = some (n + (items.actsBeforeSubs.filter (fun a => !a.isOption)).length + 1) ∧
       argSubs choices helps [] = .ok c'.children ∧ ∀ e ∈ helps, e.1 ∈ choices.names))
  | .nil, n, c, c', hn, hs, h => by
    rw [argItems] at h
    cases h
    refine ⟨⟨[], [], by simp, .nil, .nil, trivial⟩, .inl ⟨rfl, rfl, rfl⟩⟩
  | .arg a rest, n, c, c', hn, hs, h => by
    rw [argItems] at h
    split at h
    · next he =>
      obtain ⟨p, hp, h⟩ := bind_ok h
      obtain ⟨hpo, hpn⟩ := argPositional_ok hp
      have hio : a.isOption = false := by simp [ArgAction.isOption, he]
      have hn' : highestNumber (c.setPositionals (· ++ [p])).data.positionals = n + 1 := by
        show highestNumber (c.data.positionals ++ [p]) = n + 1
        rw [highestNumber_append, hn, hpn]; omega
      obtain ⟨⟨os, ps, hd, ho, hpp, hnum⟩, hsub⟩ :=
        argItems_ok rest (n + 1) _ c' hn' hs h
      refine ⟨⟨os, p :: ps, ?_, ?_, ?_, ?_⟩, ?_⟩
      · rw [hd]; simp [Cmd.setPositionals, Cmd.data]
      · simpa [ArgItems.acts, hio] using ho
      · simp only [ArgItems.acts, List.filter_cons, hio, Bool.not_false, if_true]
        exact .cons hpo hpp
      · exact ⟨hpn, hnum⟩
      · rcases hsub with ⟨h1, h2, h3⟩ | ⟨ch, hl, h1, h2, h3, h4⟩
        · exact .inl ⟨h1, h2, h3⟩
        · right
          refine ⟨ch, hl, h1, h2, ?_, h4⟩
          rw [h3]
          simp only [ArgItems.actsBeforeSubs, List.filter_cons, hio, Bool.not_false, if_true,
            List.length_cons]
          congr 1; omega
    · next he =>
      obtain ⟨o, hoo, h⟩ := bind_ok h
      have hio : a.isOption = true := by simpa [ArgAction.isOption] using he
      obtain ⟨⟨os, ps, hd, ho, hpp, hnum⟩, hsub⟩ :=
        argItems_ok rest n (c.setOptions (· ++ [o])) c' hn hs h
      refine ⟨⟨o :: os, ps, ?_, ?_, ?_, hnum⟩, ?_⟩
      · rw [hd]; simp [Cmd.setOptions, Cmd.data]
      · simp only [ArgItems.acts, List.filter_cons, hio, if_true]
        exact .cons (argOption_ok hoo) ho
      · simpa [ArgItems.acts, hio] using hpp
      · rcases hsub with ⟨h1, h2, h3⟩ | ⟨ch, hl, h1, h2, h3, h4⟩
        · exact .inl ⟨h1, h2, h3⟩
        · right
          refine ⟨ch, hl, h1, h2, ?_, h4⟩
          rw [h3]
          simp [ArgItems.actsBeforeSubs, hio]
  | .subs choices helps rest, n, c, c', hn, hs, h => by
    rw [argItems] at h
    split at h
    case isFalse => cases h
    case isTrue hall =>
      obtain ⟨c1, hc1, h⟩ := bind_ok h
      obtain ⟨ch, hch, h⟩ := bind_ok h
      obtain ⟨d, s, kids⟩ := c
      cases s with
      | some k => cases hc1
      | none =>
        cases hc1
        obtain ⟨⟨os, ps, hd, ho, hpp, hnum⟩, hsub⟩ :=
          argItems_ok rest n (.node d (some ((Cmd.node d none []).highestPositionalNum + 1)) ch) c' hn
            (by intro h; cases h) h
        refine ⟨⟨os, ps, hd, by simpa [ArgItems.acts] using ho, by simpa [ArgItems.acts] using hpp, hnum⟩, ?_⟩
        rcases hsub with ⟨h1, h2, h3⟩ | ⟨ch', hl, h1, h2, h3, h4⟩
        · right
          refine ⟨choices, helps, by simp [ArgItems.subActions, h1], rfl, ?_, ?_, ?_⟩
          · rw [h2]
            have : highestNumber d.positionals = n := hn
            simp [Cmd.sub, Cmd.highestPositionalNum, Cmd.data, this, ArgItems.actsBeforeSubs]
          · rw [h3]; exact hch
          · intro e he
            simpa using List.all_eq_true.1 hall e he
        · cases h2

/-! ## Groups -/

theorem joinGroup_optionOf {a : ArgAction} {o : Opt} (name : Str) (g : List (List Str))
    (h : OptionOf a o) : OptionOf a (joinGroup name g o) := by
  unfold joinGroup
  split
  · exact ⟨h.strings, h.takes, h.completes, h.metavar, h.optional, h.repeatable, h.final, h.hidden,
      h.help, h.when_, h.others⟩
  · exact h

theorem all2_map_right {α β : Type} {R : α → β → Prop} {f : β → β} (hf : ∀ a b, R a b → R a (f b))
    {as : List α} {bs : List β} (h : All2 R as bs) : All2 R as (bs.map f) := by
  induction h with
  | nil => exact .nil
  | cons h _ ih => exact .cons (hf _ _ h) ih

theorem joinGroups_optionOf (gs : List (List (List Str))) : ∀ (n : Nat) (as : List ArgAction) (os : List Opt),
    All2 OptionOf as os → All2 OptionOf as (joinGroups n gs os) := by
  induction gs with
  | nil => intro n as os h; exact h
  | cons g gs ih =>
    intro n as os h
    exact ih _ _ _ (all2_map_right (fun a b h => joinGroup_optionOf _ _ h) h)

theorem all2_mono {α β : Type} {R T : α → β → Prop} (hf : ∀ a b, R a b → T a b)
    {as : List α} {bs : List β} (h : All2 R as bs) : All2 T as bs := by
  induction h with
  | nil => exact .nil
  | cons h _ ih => exact .cons (hf _ _ h) ih

theorem all2_length {α β : Type} {R : α → β → Prop} {as : List α} {bs : List β} (h : All2 R as bs) :
    as.length = bs.length := by
  induction h with
  | nil => rfl
  | cons _ _ ih => simp [ih]

/-- What a successful conversion did. -/
theorem argToCmd_ok {p : ArgParser} {prog : Str} {desc : Option Str} {c : Cmd}
    (h : argToCmd p prog desc = .ok c) :
    ∃ c0, argItems p.items 0 (.node (startData p.info prog desc) none []) = .ok c0 ∧
      c = c0.setOptions (joinGroups 0 p.info.groups) := by
  obtain ⟨info, items⟩ := p
  rw [argToCmd] at h
  split at h
  · obtain ⟨c0, hc0, h⟩ := bind_ok h
    cases h
    exact ⟨c0, hc0, rfl⟩
  · cases h

theorem argToCmd_inv {p : ArgParser} {prog : Str} {desc : Option Str} {c : Cmd}
    (h : argToCmd p prog desc = .ok c) :
    ∃ os ps, c.data = { startData p.info prog desc with options := joinGroups 0 p.info.groups os, positionals := ps } ∧
      All2 (fun a o => OptionOf a o ∧ o.groups = none) p.optionActions os ∧
      All2 PositionalOf p.positionalActions ps ∧ NumberedFrom 1 ps := by
  obtain ⟨c0, hc0, rfl⟩ := argToCmd_ok h
  obtain ⟨⟨os, ps, hd, ho, hp, hn⟩, _⟩ := argItems_ok _ 0 _ _ rfl (fun _ => rfl) hc0
  refine ⟨os, ps, ?_, ho, hp, hn⟩
  show { c0.data with options := joinGroups 0 p.info.groups c0.data.options } = _
  rw [hd]
  simp [Cmd.data, startData]

/-! ## The theorems -/

/-- Converting a parser gives one option for each action with option strings, in the same order, with
the same strings and attributes. -/
theorem C32_options (p : ArgParser) (prog : Str) (desc : Option Str) (c : Cmd)
    (h : argToCmd p prog desc = .ok c) : All2 OptionOf p.optionActions c.data.options := by
  obtain ⟨os, ps, hd, ho, _, _⟩ := argToCmd_inv h
  rw [hd]
  exact joinGroups_optionOf _ _ _ _ (all2_mono (fun _ _ h => h.1) ho)

/-- The same for the option strings alone. -/
theorem C32_option_strings (p : ArgParser) (prog : Str) (desc : Option Str) (c : Cmd)
    (h : argToCmd p prog desc = .ok c) :
    c.data.options.map (·.strings) = p.optionActions.map (·.optionStrings) := by
  have := C32_options p prog desc c h
  generalize p.optionActions = as at this
  generalize c.data.options = os at this
  induction this with
  | nil => rfl
  | cons h _ ih => simp [h.strings, ih]

/-- It gives one positional for each action without option strings, in the same order, numbered
1, 2, 3 and so on. -/
theorem C32_positionals (p : ArgParser) (prog : Str) (desc : Option Str) (c : Cmd)
    (h : argToCmd p prog desc = .ok c) :
    All2 PositionalOf p.positionalActions c.data.positionals ∧
    ∀ i (hi : i < c.data.positionals.length), c.data.positionals[i].number = i + 1 := by
  obtain ⟨os, ps, hd, _, hp, hn⟩ := argToCmd_inv h
  have hps : c.data.positionals = ps := by rw [hd]
  subst hps
  refine ⟨hp, fun i hi => ?_⟩
  rw [(numberedFrom_iff _ _).1 hn i hi]; omega

/-- The name, help text and aliases. -/
theorem C32_command (p : ArgParser) (prog : Str) (desc : Option Str) (c : Cmd)
    (h : argToCmd p prog desc = .ok c) :
    c.data.prog = subName (prog, p) ∧
    c.data.help = (if desc = none ∨ desc = some [] then p.info.description else desc) ∧
    c.data.aliases = p.info.aliases := by
  obtain ⟨os, ps, hd, _, hp, hn⟩ := argToCmd_inv h
  rw [hd]
  refine ⟨?_, ?_, rfl⟩
  · simp [subName, startData]
  · cases desc with
    | none => simp [orOpt, startData]
    | some s => cases s <;> simp [orOpt, startData]

/-- The help texts recorded for subparsers: the last one given for the name. -/
def HelpOf (helps : List (Str × Option Str)) (name : Str) (h : Option Str) : Prop :=
  (∃ l r, helps = l ++ (name, h) :: r ∧ ∀ e ∈ r, e.1 ≠ name) ∨ ((∀ e ∈ helps, e.1 ≠ name) ∧ h = none)

theorem subHelp_go (name : Str) (helps : List (Str × Option Str)) : ∀ (acc : Option Str),
    (∃ l r, helps = l ++ (name, helps.foldl (fun h e => if e.1 = name then e.2 else h) acc) :: r ∧
      ∀ e ∈ r, e.1 ≠ name) ∨
    ((∀ e ∈ helps, e.1 ≠ name) ∧ helps.foldl (fun h e => if e.1 = name then e.2 else h) acc = acc) := by
  induction helps with
  | nil => intro acc; right; simp
  | cons e es ih =>
    intro acc
    simp only [List.foldl_cons]
    rcases ih (if e.1 = name then e.2 else acc) with ⟨l, r, hl, hr⟩ | ⟨hn, hacc⟩
    · left
      exact ⟨e :: l, r, by rw [List.cons_append, ← hl], hr⟩
    · rw [hacc]
      by_cases he : e.1 = name
      · left
        refine ⟨[], es, ?_, hn⟩
        rw [if_pos he, ← he]
        rfl
      · right
        rw [if_neg he]
        refine ⟨?_, rfl⟩
        intro x hx
        rcases List.mem_cons.1 hx with rfl | hx
        · exact he
        · exact hn x hx

theorem subHelp_spec (helps : List (Str × Option Str)) (name : Str) :
    HelpOf helps name (subHelp helps name) := subHelp_go name helps none

theorem argSubs_ok : ∀ (s : ArgSubs) (helps : List (Str × Option Str)) (acc r : List Cmd),
    argSubs s helps acc = .ok r →
    ∃ cs, r = acc ++ cs ∧
      All2 (fun e c => argToCmd e.2 e.1 (subHelp helps e.1) = .ok c) s.entries cs
  | .nil, helps, acc, r, h => by
    rw [argSubs] at h; cases h
    exact ⟨[], by simp, .nil⟩
  | .cons name p rest, helps, acc, r, h => by
    rw [argSubs] at h
    obtain ⟨c, hc, h⟩ := bind_ok h
    obtain ⟨acc', ha, h⟩ := bind_ok h
    unfold addSub at ha
    split at ha
    · cases ha
    · cases ha
      obtain ⟨cs, rfl, hcs⟩ := argSubs_ok rest helps _ r h
      exact ⟨c :: cs, by simp, .cons hc hcs⟩

/-- Without subparsers there are no subcommands. With them, there is one subcommand for each name, in
order, converted from the parser of that name with the help text recorded for it; and the subcommand
word comes after the positionals that were added before the subparsers. -/
theorem C32_subcommands (p : ArgParser) (prog : Str) (desc : Option Str) (c : Cmd)
    (h : argToCmd p prog desc = .ok c) :
    (p.items.subActions = [] ∧ c.sub = none ∧ c.children = []) ∨
    ∃ choices helps, p.items.subActions = [(choices, helps)] ∧
      c.sub = some ((p.items.actsBeforeSubs.filter (fun a => !a.isOption)).length + 1) ∧
      All2 (fun e child => ∃ help, HelpOf helps e.1 help ∧ argToCmd e.2 e.1 help = .ok child)
        choices.entries c.children := by
  obtain ⟨c0, hc0, rfl⟩ := argToCmd_ok h
  obtain ⟨_, hsub⟩ := argItems_ok _ 0 _ _ rfl (fun _ => rfl) hc0
  rcases hsub with ⟨h1, h2, h3⟩ | ⟨ch, hl, h1, _, h2, h3, _⟩
  · exact .inl ⟨h1, h2, h3⟩
  · right
    refine ⟨ch, hl, h1, ?_, ?_⟩
    · show c0.sub = _
      rw [h2]; simp
    · obtain ⟨cs, hcs, hall⟩ := argSubs_ok _ _ _ _ h3
      show All2 _ _ c0.children
      rw [hcs]
      exact all2_mono (fun e c h => ⟨_, subHelp_spec _ _, h⟩) hall

/-! ## Mutually exclusive groups -/

/-- Some action of the group has one of the option strings. -/
def Touches (g : List (List Str)) (strings : List Str) : Prop := ∃ t ∈ g, ∃ s ∈ t, s ∈ strings

/-- What the loop over the groups does to one option. -/
def joinOne : Nat → List (List (List Str)) → Opt → Opt
  | _, [], o => o
  | n, g :: gs, o => joinOne (n + 1) gs (joinGroup (groupName (n + 1)) g o)

theorem joinGroups_map (gs : List (List (List Str))) : ∀ (n : Nat) (os : List Opt),
    joinGroups n gs os = os.map (joinOne n gs) := by
  induction gs with
  | nil => intro n os; simp [joinGroups, joinOne]
  | cons g gs ih =>
    intro n os
    simp only [joinGroups, ih, List.map_map]
    rfl

theorem joinGroup_strings (name : Str) (g : List (List Str)) (o : Opt) :
    (joinGroup name g o).strings = o.strings := by
  unfold joinGroup; split <;> rfl

theorem joinGroup_groups (name : Str) (g : List (List Str)) (o : Opt) :
    (Touches g o.strings ∧ (joinGroup name g o).groups = some [name]) ∨
    (¬ Touches g o.strings ∧ (joinGroup name g o).groups = o.groups) := by
  have key : (g.any (fun strings => strings.any (fun s => o.strings.contains s))) = true ↔
      Touches g o.strings := by
    simp [Touches]
  unfold joinGroup
  split
  · next h => exact .inl ⟨key.1 h, rfl⟩
  · next h => exact .inr ⟨fun ht => h (key.2 ht), rfl⟩

theorem joinOne_groups (gs : List (List (List Str))) : ∀ (n : Nat) (o : Opt),
    (∃ k, ∃ h : k < gs.length, Touches gs[k] o.strings ∧
      (∀ j (hj : j < gs.length), k < j → ¬ Touches gs[j] o.strings) ∧
      (joinOne n gs o).groups = some [groupName (n + k + 1)]) ∨
    ((∀ g ∈ gs, ¬ Touches g o.strings) ∧ (joinOne n gs o).groups = o.groups) := by
  induction gs with
  | nil => intro n o; right; simp [joinOne]
  | cons g gs ih =>
    intro n o
    simp only [joinOne]
    have hs := joinGroup_strings (groupName (n + 1)) g o
    rcases ih (n + 1) (joinGroup (groupName (n + 1)) g o) with ⟨k, hk, ht, hl, hg⟩ | ⟨hn, hg⟩
    · left
      rw [hs] at ht
      refine ⟨k + 1, by simpa using hk, by simpa using ht, ?_, ?_⟩
      · intro j hj hkj
        cases j with
        | zero => omega
        | succ j =>
          have := hl j (by simpa using hj) (by omega)
          rw [hs] at this
          simpa using this
      · rw [hg]; congr 3; omega
    · rw [hs] at hn
      rcases joinGroup_groups (groupName (n + 1)) g o with ⟨ht, he⟩ | ⟨ht, he⟩
      · left
        refine ⟨0, by simp, by simpa using ht, ?_, by rw [hg, he]⟩
        intro j hj hj0
        cases j with
        | zero => omega
        | succ j => simpa using hn _ (List.getElem_mem (by simpa using hj))
      · right
        refine ⟨?_, by rw [hg, he]⟩
        intro x hx
        rcases List.mem_cons.1 hx with rfl | hx
        · exact ht
        · exact hn x hx

/-- What argparse guarantees about the option strings and groups of a parser: no two option actions
share a string; the members of groups are actions of the parser (positionals have no strings); an
action with strings is in one group at most. -/
structure GroupsWellFormed (p : ArgParser) : Prop where
  disjoint : ∀ i j (hi : i < p.optionActions.length) (hj : j < p.optionActions.length), i ≠ j →
    ∀ s ∈ p.optionActions[i].optionStrings, s ∉ p.optionActions[j].optionStrings
  members : ∀ g ∈ p.info.groups, ∀ t ∈ g, t = [] ∨ ∃ a ∈ p.optionActions, a.optionStrings = t
  once : ∀ i j (hi : i < p.info.groups.length) (hj : j < p.info.groups.length), ∀ t,
    t ∈ p.info.groups[i] → t ∈ p.info.groups[j] → t ≠ [] → i = j

theorem touches_iff {p : ArgParser} (hw : GroupsWellFormed p) {i : Nat} (hi : i < p.optionActions.length)
    {g : List (List Str)} (hg : g ∈ p.info.groups) :
    Touches g p.optionActions[i].optionStrings ↔ p.optionActions[i].optionStrings ∈ g := by
  have hne : p.optionActions[i].optionStrings ≠ [] := by
    have : p.optionActions[i] ∈ p.optionActions := List.getElem_mem hi
    have := (List.mem_filter.1 this).2
    simpa [ArgAction.isOption] using this
  constructor
  · rintro ⟨t, ht, s, hs, hsi⟩
    rcases hw.members g hg t ht with rfl | ⟨a, ha, rfl⟩
    · cases hs
    · obtain ⟨j, hj, rfl⟩ := List.getElem_of_mem ha
      by_cases hij : i = j
      · subst hij; exact ht
      · exact absurd hs (hw.disjoint i j hi hj hij s hsi)
  · intro h
    obtain ⟨s, r, hsr⟩ := List.exists_cons_of_ne_nil hne
    exact ⟨_, h, s, by rw [hsr]; simp, by rw [hsr]; simp⟩

theorem all2_getElem {α β : Type} {R : α → β → Prop} {as : List α} {bs : List β} (h : All2 R as bs) :
    ∀ i (hi : i < as.length) (hj : i < bs.length), R as[i] bs[i] := by
  induction h with
  | nil => intro i hi; cases hi
  | cons h _ ih =>
    intro i hi hj
    cases i with
    | zero => exact h
    | succ i => exact ih i (by simpa using hi) (by simpa using hj)

/-- The group of a converted option: that of the group its action is in. -/
theorem option_groups {p : ArgParser} {prog : Str} {desc : Option Str} {c : Cmd}
    (h : argToCmd p prog desc = .ok c) (hw : GroupsWellFormed p) (i : Nat)
    (hi : i < p.optionActions.length) (hi' : i < c.data.options.length) :
    (∃ k, ∃ hk : k < p.info.groups.length, p.optionActions[i].optionStrings ∈ p.info.groups[k] ∧
      c.data.options[i].groups = some [groupName (k + 1)]) ∨
    ((∀ g ∈ p.info.groups, p.optionActions[i].optionStrings ∉ g) ∧ c.data.options[i].groups = none) := by
  obtain ⟨os, ps, hd, ho, _, _⟩ := argToCmd_inv h
  have hopt : c.data.options = os.map (joinOne 0 p.info.groups) := by rw [hd, ← joinGroups_map]
  have hlen := all2_length ho
  have hio : i < os.length := by omega
  obtain ⟨h1, h2⟩ := all2_getElem ho i hi hio
  have hget : c.data.options[i] = joinOne 0 p.info.groups os[i] := by
    simp only [hopt, List.getElem_map]
  rw [hget]
  rcases joinOne_groups p.info.groups 0 os[i] with ⟨k, hk, ht, _, hg⟩ | ⟨hn, hg⟩
  · left
    rw [h1.strings] at ht
    exact ⟨k, hk, (touches_iff hw hi (List.getElem_mem hk)).1 ht, by rw [hg]; simp⟩
  · right
    rw [h1.strings] at hn
    exact ⟨fun g hg' hm => hn g hg' ((touches_iff hw hi hg').2 hm), by rw [hg, h2]⟩

/-- Two converted options exclude each other exactly if their actions were put in the same mutually
exclusive group. -/
theorem C32_exclusive (p : ArgParser) (prog : Str) (desc : Option Str) (c : Cmd)
    (h : argToCmd p prog desc = .ok c) (hw : GroupsWellFormed p) (i j : Nat)
    (hi : i < p.optionActions.length) (hj : j < p.optionActions.length)
    (hi' : i < c.data.options.length) (hj' : j < c.data.options.length) :
    ShareGroup c.data.options[i] c.data.options[j] ↔
      ∃ g ∈ p.info.groups, p.optionActions[i].optionStrings ∈ g ∧ p.optionActions[j].optionStrings ∈ g := by
  have hne : p.optionActions[i].optionStrings ≠ [] := by
    have : p.optionActions[i] ∈ p.optionActions := List.getElem_mem hi
    have := (List.mem_filter.1 this).2
    simpa [ArgAction.isOption] using this
  have hnej : p.optionActions[j].optionStrings ≠ [] := by
    have : p.optionActions[j] ∈ p.optionActions := List.getElem_mem hj
    have := (List.mem_filter.1 this).2
    simpa [ArgAction.isOption] using this
  constructor
  · rintro ⟨g, ga, gb, h1, h2, h3, h4⟩
    rcases option_groups h hw i hi hi' with ⟨k, hk, hm, hg⟩ | ⟨_, hg⟩
    · rcases option_groups h hw j hj hj' with ⟨l, hl, hm', hg'⟩ | ⟨_, hg'⟩
      · rw [hg] at h1; cases h1
        rw [hg'] at h2; cases h2
        have e1 : g = groupName (k + 1) := by simpa using h3
        have e2 : g = groupName (l + 1) := by simpa using h4
        have e3 : natStr (k + 1) = natStr (l + 1) := by
          rw [e1] at e2
          unfold groupName at e2
          exact List.append_cancel_left e2
        have := natStr_inj e3
        have hkl : k = l := by omega
        subst hkl
        exact ⟨_, List.getElem_mem hk, hm, hm'⟩
      · rw [hg'] at h2; cases h2
    · rw [hg] at h1; cases h1
  · rintro ⟨g, hg, hm, hm'⟩
    obtain ⟨k, hk, rfl⟩ := List.getElem_of_mem hg
    rcases option_groups h hw i hi hi' with ⟨k1, hk1, hm1, hg1⟩ | ⟨hn, _⟩
    · rcases option_groups h hw j hj hj' with ⟨k2, hk2, hm2, hg2⟩ | ⟨hn, _⟩
      · have e1 := hw.once k k1 hk hk1 _ hm hm1 hne
        have e2 := hw.once k k2 hk hk2 _ hm' hm2 hnej
        subst e1; subst e2
        exact ⟨groupName (k + 1), _, _, hg1, hg2, by simp, by simp⟩
      · exact absurd hm' (hn _ hg)
    · exact absurd hm (hn _ hg)

/-! ## Which parsers are accepted -/

theorem argOption_isOk (a : ArgAction) (hio : a.isOption = true) :
    (∃ o, argOption a = .ok o) ↔ a.Supported := by
  have hne : a.optionStrings ≠ [] := by simpa [ArgAction.isOption] using hio
  unfold ArgAction.Supported
  rw [← and_assoc, ← argComplete_isOk]
  have hchk : ∀ r, argComplete a = .ok r → ((argOptionOf a r).check = true ↔
      ((∀ s ∈ a.optionStrings, isValidOptionString s = true) ∧
      (a.nargs = .str (S "?") → a.takesArgument) ∧
      ¬ (a.help = some suppress ∧ a.repeatable = .val true))) := by
    intro r hr
    rcases argComplete_ok hr with ⟨ht, v, rfl, hv, _⟩ | ⟨ht, rfl⟩
    · simp [Opt.check, argOptionOf, truthyList, hv, ht, captureOk, hne]
      intro _
      by_cases hh : a.help = some suppress <;> simp [hh]
    · simp [Opt.check, argOptionOf, truthyList, ht, captureOk, hne]
      by_cases hh : a.help = some suppress <;> simp [hh, and_assoc]
  constructor
  · rintro ⟨o, ho⟩
    unfold argOption at ho
    obtain ⟨r, hr, ho⟩ := bind_ok ho
    refine ⟨⟨r, hr⟩, fun _ => (hchk r hr).1 ?_⟩
    unfold Opt.init at ho
    split at ho
    · next h => exact h
    · cases ho
  · rintro ⟨⟨r, hr⟩, h⟩
    refine ⟨argOptionOf a r, ?_⟩
    unfold argOption
    rw [hr]
    show Opt.init _ = _
    unfold Opt.init
    rw [if_pos ((hchk r hr).2 (h hio))]

theorem argPositional_isOk (n : Nat) (a : ArgAction) (hio : a.isOption = false) :
    (∃ p, argPositional (n + 1) a = .ok p) ↔ a.Supported := by
  unfold ArgAction.Supported
  rw [← and_assoc, ← argComplete_isOk]
  constructor
  · rintro ⟨p, hp⟩
    unfold argPositional at hp
    obtain ⟨r, hr, _⟩ := bind_ok hp
    exact ⟨⟨r, hr⟩, fun h => by rw [hio] at h; cases h⟩
  · rintro ⟨⟨r, hr⟩, _⟩
    unfold argPositional
    rw [hr]
    exact ⟨_, rfl⟩

theorem names_entries : ∀ s : ArgSubs, s.names = s.entries.map (·.1)
  | .nil => rfl
  | .cons n p r => by simp [ArgSubs.names, ArgSubs.entries, names_entries r]

theorem bind_isOk {α β : Type} {x : Except Err α} {f : α → Except Err β} :
    (∃ r, x >>= f = .ok r) ↔ ∃ a, x = .ok a ∧ ∃ r, f a = .ok r := by
  constructor
  · rintro ⟨r, h⟩
    obtain ⟨a, h1, h2⟩ := bind_ok h
    exact ⟨a, h1, r, h2⟩
  · rintro ⟨a, h1, r, h2⟩
    exact ⟨r, by rw [h1]; exact h2⟩

mutual
theorem argToCmd_isOk : ∀ (p : ArgParser) (prog : Str) (desc : Option Str),
    (∃ c, argToCmd p prog desc = .ok c) ↔ p.Supported
  | .mk info items, prog, desc => by
    rw [argToCmd, ArgParser.Supported]
    have hc : (startData info prog desc).check = true ↔
        ∀ a ∈ info.aliases, ¬ (' ' ∈ a ∨ '\t' ∈ a ∨ '\n' ∈ a) := by
      simp [CmdData.check, startData, containsSpace, and_assoc]
    have hi := argItems_isOk items 0 (.node (startData info prog desc) none []) rfl
    simp only [Cmd.sub, Option.isSome_none, Bool.false_eq_true, if_false, Nat.add_zero] at hi
    rw [← hc, and_comm (a := items.subActions.length ≤ 1), ← hi]
    split
    · next h =>
      simp only [h, true_and]
      constructor
      · rintro ⟨c, h⟩
        obtain ⟨c0, h0, _⟩ := bind_ok h
        exact ⟨c0, h0⟩
      · rintro ⟨c0, h0⟩
        rw [h0]
        exact ⟨_, rfl⟩
    · next h => simp [h]
theorem argItems_isOk : ∀ (items : ArgItems) (n : Nat) (c : Cmd), highestNumber c.data.positionals = n →
    ((∃ c', argItems items n c = .ok c') ↔
      items.Supported ∧ items.subActions.length + (if c.sub.isSome then 1 else 0) ≤ 1)
  | .nil, n, c, _ => by
    rw [argItems, ArgItems.Supported]
    simp [ArgItems.subActions]
    split <;> omega
  | .arg a rest, n, c, hn => by
    rw [argItems, ArgItems.Supported]
    simp only [ArgItems.subActions]
    split
    · next he =>
      have hio : a.isOption = false := by simp [ArgAction.isOption, he]
      rw [bind_isOk, ← argPositional_isOk n a hio, and_assoc]
      constructor
      · rintro ⟨p, hp, h⟩
        have hn' : highestNumber (c.setPositionals (· ++ [p])).data.positionals = n + 1 := by
          show highestNumber (c.data.positionals ++ [p]) = n + 1
          rw [highestNumber_append, hn, (argPositional_ok hp).2]; omega
        exact ⟨⟨p, hp⟩, (argItems_isOk rest (n + 1) _ hn').1 h⟩
      · rintro ⟨⟨p, hp⟩, h⟩
        have hn' : highestNumber (c.setPositionals (· ++ [p])).data.positionals = n + 1 := by
          show highestNumber (c.data.positionals ++ [p]) = n + 1
          rw [highestNumber_append, hn, (argPositional_ok hp).2]; omega
        exact ⟨p, hp, (argItems_isOk rest (n + 1) _ hn').2 h⟩
    · next he =>
      have hio : a.isOption = true := by simpa [ArgAction.isOption] using he
      rw [bind_isOk, ← argOption_isOk a hio, and_assoc]
      constructor
      · rintro ⟨o, ho, h⟩
        exact ⟨⟨o, ho⟩, (argItems_isOk rest n (c.setOptions (· ++ [o])) hn).1 h⟩
      · rintro ⟨⟨o, ho⟩, h⟩
        exact ⟨o, ho, (argItems_isOk rest n (c.setOptions (· ++ [o])) hn).2 h⟩
  | .subs choices helps rest, n, .node d s kids, hn => by
    rw [argItems, ArgItems.Supported]
    have hh : helps.all (fun e => choices.names.contains e.1) = true ↔
        ∀ e ∈ helps, e.1 ∈ choices.entries.map (·.1) := by
      rw [names_entries]
      simp only [List.all_eq_true, List.contains_iff_mem]
    rw [← hh]
    have hs := argSubs_isOk choices helps [] (by simp)
    simp only [List.map_nil, List.nil_append] at hs
    split
    · next hall =>
      simp only [ArgItems.subActions, List.length_cons, hall, true_and]
      rw [bind_isOk]
      cases s with
      | some k =>
        constructor
        · rintro ⟨c', hc', _⟩; cases hc'
        · rintro ⟨_, h⟩
          simp [Cmd.sub] at h
      | none =>
        constructor
        · rintro ⟨c', hc', h⟩
          cases hc'
          obtain ⟨ch, hch, h⟩ := bind_isOk.1 h
          obtain ⟨h1, h2⟩ := (argItems_isOk rest n (.node d (some ((Cmd.node d none []).highestPositionalNum + 1)) ch) hn).1 h
          obtain ⟨h3, h4⟩ := hs.1 ⟨ch, hch⟩
          exact ⟨⟨h4, h3, h1⟩, by simpa [Cmd.sub] using h2⟩
        · rintro ⟨⟨h4, h3, h1⟩, h2⟩
          obtain ⟨ch, hch⟩ := hs.2 ⟨h3, h4⟩
          refine ⟨_, rfl, bind_isOk.2 ⟨ch, hch, ?_⟩⟩
          exact (argItems_isOk rest n (.node d (some ((Cmd.node d none []).highestPositionalNum + 1)) ch) hn).2
            ⟨h1, by simpa [Cmd.sub] using h2⟩
    · next hall =>
      constructor
      · rintro ⟨_, h⟩; cases h
      · rintro ⟨⟨h, _⟩, _⟩; exact absurd h hall
theorem argSubs_isOk : ∀ (s : ArgSubs) (helps : List (Str × Option Str)) (acc : List Cmd),
    (acc.map (fun c => c.data.prog)).Nodup →
    ((∃ r, argSubs s helps acc = .ok r) ↔
      s.Supported ∧ (acc.map (fun c => c.data.prog) ++ s.entries.map subName).Nodup)
  | .nil, helps, acc, hnd => by
    rw [argSubs, ArgSubs.Supported]
    simp [ArgSubs.entries, hnd]
  | .cons name p rest, helps, acc, hnd => by
    rw [argSubs, ArgSubs.Supported, bind_isOk, ← argToCmd_isOk p name (subHelp helps name)]
    simp only [ArgSubs.entries, List.map_cons]
    have hadd : ∀ c : Cmd, (∃ a, addSub acc c = .ok a) ↔ c.data.prog ∉ acc.map (fun c => c.data.prog) := by
      intro c
      unfold addSub subByName
      split
      · next h =>
        simp at h
        simp
        obtain ⟨x, hx, hp⟩ := h
        exact ⟨x, hx, hp⟩
      · next h =>
        simp at h
        simp
        exact h
    constructor
    · rintro ⟨c, hc, h⟩
      obtain ⟨acc', ha, h⟩ := bind_isOk.1 h
      have hcn := (C32_command p name _ c hc).1
      have hnot := (hadd c).1 ⟨acc', ha⟩
      have hacc : acc' = acc ++ [c] := by
        unfold addSub at ha
        split at ha
        · cases ha
        · cases ha; rfl
      subst hacc
      have hnd' : ((acc ++ [c]).map (fun c => c.data.prog)).Nodup := by
        rw [List.map_append]
        refine List.nodup_append.2 ⟨hnd, by simp, ?_⟩
        intro a ha b hb hab
        simp at hb
        subst hab; subst hb
        exact hnot ha
      obtain ⟨h1, h2⟩ := (argSubs_isOk rest helps _ hnd').1 h
      refine ⟨⟨⟨c, hc⟩, h1⟩, ?_⟩
      rw [← hcn]
      simpa using h2
    · rintro ⟨⟨⟨c, hc⟩, h1⟩, h2⟩
      have hcn := (C32_command p name _ c hc).1
      rw [← hcn] at h2
      have hnd' : ((acc ++ [c]).map (fun c => c.data.prog)).Nodup := by
        have : ((acc ++ [c]).map (fun c => c.data.prog) ++ rest.entries.map subName).Nodup := by
          simpa using h2
        exact (List.nodup_append.1 this).1
      have hnot : c.data.prog ∉ acc.map (fun c => c.data.prog) := by
        intro hm
        have := (List.nodup_append.1 h2).2.2 _ hm c.data.prog (by simp)
        exact this rfl
      refine ⟨c, hc, bind_isOk.2 ?_⟩
      refine ⟨acc ++ [c], ?_, ?_⟩
      · obtain ⟨a, ha⟩ := (hadd c).2 hnot
        have hacc : a = acc ++ [c] := by
          unfold addSub at ha
          split at ha
          · cases ha
          · cases ha; rfl
        rw [← hacc]; exact ha
      · exact (argSubs_isOk rest helps _ hnd').2 ⟨h1, by simpa using h2⟩
end

/-- A parser is converted exactly if its actions are of the known kinds, its option strings are
acceptable, no hidden option is marked repeatable, and its subparsers have different names and can
themselves be converted. -/
theorem C32_accepted_iff (p : ArgParser) (prog : Str) (desc : Option Str) :
    (∃ c, argToCmd p prog desc = .ok c) ↔ p.Supported := argToCmd_isOk p prog desc

/-! ## The subcommand word -/

theorem actsBefore_prefix : ∀ items : ArgItems, ∃ rest, items.acts = items.actsBeforeSubs ++ rest
  | .nil => ⟨[], rfl⟩
  | .arg a rest => by
    obtain ⟨r, hr⟩ := actsBefore_prefix rest
    exact ⟨r, by simp [ArgItems.acts, ArgItems.actsBeforeSubs, hr]⟩
  | .subs _ _ rest => ⟨rest.acts, rfl⟩

/-- If no positional is added after the subparsers, the subcommand word is expected right after the
positionals. -/
theorem C32_subcommand_last (p : ArgParser) (prog : Str) (desc : Option Str) (c : Cmd)
    (h : argToCmd p prog desc = .ok c) (hs : p.items.subActions ≠ [])
    (hlast : p.items.acts.filter (fun a => !a.isOption) =
      p.items.actsBeforeSubs.filter (fun a => !a.isOption)) :
    c.sub = some (c.data.positionals.length + 1) := by
  rcases C32_subcommands p prog desc c h with ⟨h1, _, _⟩ | ⟨ch, hl, _, h2, _⟩
  · exact absurd h1 hs
  · rw [h2, ← hlast]
    have := all2_length (C32_positionals p prog desc c h).1
    unfold ArgParser.positionalActions at this
    rw [this]

/-- A positional added after the subparsers gets the number that the subcommand word already has. -/
theorem C32_positional_after_subparsers :
    ∃ (p : ArgParser) (c : Cmd) (pos : Pos), argToCmd p [] none = .ok c ∧
      pos ∈ c.data.positionals ∧ c.sub = some pos.number :=
  ⟨.mk { prog := S "p" } (.subs (.cons (S "run") (.mk { prog := S "p run" } .nil) .nil) []
      (.arg { kind := .store, dest := S "file" } .nil)),
   .node { prog := S "p", positionals := [{ number := 1, metavar := some (S "file") }] } (some 1)
     [.node { prog := S "run" } none []],
   { number := 1, metavar := some (S "file") }, rfl, List.mem_cons_self, rfl⟩

/-! ## An example -/

/-- A help option, exclusive `-v` and `-q`, `--level` with a range of choices and an optional argument,
a hidden option, two positionals and two subparsers. -/
def exampleParser : ArgParser :=
  .mk { prog := S "tool", description := some (S "A tool"),
        groups := [[[S "-v", S "--verbose"], [S "-q"]]] }
    (.arg { kind := .help, optionStrings := [S "-h", S "--help"], nargs := .num 0, dest := S "help",
            help := some (S "show help") }
    (.arg { kind := .storeTrue, optionStrings := [S "-v", S "--verbose"], nargs := .num 0, dest := S "verbose" }
    (.arg { kind := .storeTrue, optionStrings := [S "-q"], nargs := .num 0, dest := S "q" }
    (.arg { kind := .store, optionStrings := [S "--level"], nargs := .str (S "?"), dest := S "level",
            choices := some (.range 0 10 2) }
    (.arg { kind := .store, optionStrings := [S "--debug"], dest := S "debug", help := some suppress }
    (.arg { kind := .store, dest := S "src", metavar := some (S "SRC") }
    (.arg { kind := .store, dest := S "files", nargs := .str (S "+") }
    (.subs (.cons (S "add") (.mk { prog := S "tool add" } .nil)
           (.cons (S "rm") (.mk { prog := S "tool rm", aliases := [S "del"] }
              (.arg { kind := .count, optionStrings := [S "-f"], dest := S "f" } .nil)) .nil))
      [(S "add", some (S "add things"))] .nil))))))))

/-- What it is converted to. -/
def exampleCommand : Cmd :=
  .node { prog := S "tool", help := some (S "A tool"),
          options := [
            { strings := [S "-h", S "--help"], help := some (S "show help"), final := true },
            { strings := [S "-v", S "--verbose"], groups := some [S "group1"] },
            { strings := [S "-q"], groups := some [S "group1"] },
            { strings := [S "--level"], metavar := some (S "level"), optionalArg := true,
              complete := some [.str (S "range"), .int 0, .int 9, .int 2] },
            { strings := [S "--debug"], metavar := some (S "debug"), hidden := true,
              complete := some [.str (S "none")] }],
          positionals := [
            { number := 1, metavar := some (S "SRC") },
            { number := 2, metavar := some (S "files"), repeatable := true }] }
    (some 3)
    [.node { prog := S "add", help := some (S "add things") } none [],
     .node { prog := S "rm", aliases := [S "del"], options := [{ strings := [S "-f"] }] } none []]

theorem C32_example : argToCmd exampleParser [] none = .ok exampleCommand := rfl

theorem C32_example_supported : exampleParser.Supported :=
  (C32_accepted_iff _ [] none).1 ⟨_, C32_example⟩

theorem C32_example_groups : GroupsWellFormed exampleParser := by
  refine ⟨?_, ?_, ?_⟩
  · have key : ((List.range 5).all fun i => (List.range 5).all fun j => decide (i = j) ||
        ((exampleParser.optionActions.map (·.optionStrings)).getD i []).all fun s =>
          !((exampleParser.optionActions.map (·.optionStrings)).getD j []).contains s) = true := by decide
    intro i j hi hj hij s hs hs'
    have hi5 : i < 5 := hi
    have hj5 : j < 5 := hj
    have h1 := List.all_eq_true.1 key i (List.mem_range.2 hi5)
    have h2 := List.all_eq_true.1 h1 j (List.mem_range.2 hj5)
    simp only [hij, decide_false, Bool.false_or, List.getD_eq_getElem?_getD, List.getElem?_map] at h2
    rw [List.getElem?_eq_getElem hi, List.getElem?_eq_getElem hj] at h2
    have h3 := List.all_eq_true.1 h2 s hs
    simp at h3
    exact h3 hs'
  · decide
  · intro i j hi hj t _ _ _
    have h1 : i < 1 := hi
    have h2 : j < 1 := hj
    omega

/-- In it `-v` and `-q` exclude each other, `-v` and `--level` do not. -/
theorem C32_example_exclusive :
    ShareGroup { strings := [S "-v", S "--verbose"], groups := some [S "group1"] }
      { strings := [S "-q"], groups := some [S "group1"] } ∧
    ¬ ∃ g ∈ exampleParser.info.groups, [S "-v", S "--verbose"] ∈ g ∧ [S "--level"] ∈ g :=
  ⟨⟨S "group1", _, _, rfl, rfl, by simp, by simp⟩, by decide⟩

end CC
