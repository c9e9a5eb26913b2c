import Verif.Spec.OptionTypesSpec
import Verif.Lemmas.BashTree
import Verif.Props.FishQuery
/-!
# C64: leaving out parts of the query helpers
-/

namespace CC

theorem foldl_flag {α β : Type} (f : α → Bool) (step : α → β → α) (p : β → Bool)
    (h : ∀ t x, f (step t x) = (f t || p x)) (l : List β) (t : α) : f (l.foldl step t) = (f t || l.any p) := by
  induction l generalizing t with
  | nil => simp
  | cons x l ih => simp [ih, h, Bool.or_assoc]

/-- The option strings of a form. -/
def Opt.styled (o : Opt) : QStyle → List Str
  | .long => o.longStrings
  | .short => o.shortStrings
  | .old => o.oldStrings

theorem has_addOption (st : QStyle) (k : ArgKind) (t : OptionTypes) (o : Opt) :
    (t.addOption o).has st k = (t.has st k || (!(o.styled st).isEmpty && decide (o.kind = k))) := by
  have hk : o.kind = if o.hasRequiredArg then .required else if o.hasOptionalArg then .optional else .flag := rfl
  rw [hk]
  unfold OptionTypes.addOption OptionTypes.addLong OptionTypes.addOld OptionTypes.addShort
  cases o.hasRequiredArg <;> cases o.hasOptionalArg <;> cases h1 : o.longStrings.isEmpty <;>
    cases h2 : o.shortStrings.isEmpty <;> cases h3 : o.oldStrings.isEmpty <;>
    cases st <;> cases k <;> simp [OptionTypes.has, Opt.styled, h1, h2, h3]

theorem has_addCmd (st : QStyle) (k : ArgKind) (t : OptionTypes) (c : Cmd) :
    (t.addCmd c).has st k = (t.has st k || c.data.options.any (fun o => !(o.styled st).isEmpty && decide (o.kind = k))) := by
  unfold OptionTypes.addCmd
  simp only
  refine (foldl_flag (fun t : OptionTypes => t.has st k) OptionTypes.addOption _ (has_addOption st k) _ _).trans ?_
  congr 1
  split <;> split <;> cases st <;> cases k <;> rfl

theorem mem_all_iff (root c : Cmd) : c ∈ root.all ↔ ∃ parents, At root parents c := by
  constructor
  · intro h
    rw [← walk_all root [], List.mem_map] at h
    obtain ⟨e, he, rfl⟩ := h
    exact ⟨e.1, (mem_walk_iff root e.1 e.2).mp he⟩
  · rintro ⟨parents, h⟩
    exact at_all h

theorem addOption_positionals (t : OptionTypes) (o : Opt) :
    (t.addOption o).positionals = t.positionals ∧ (t.addOption o).subcommands = t.subcommands := by
  have h1 : ∀ t : OptionTypes, (t.addLong o).positionals = t.positionals ∧ (t.addLong o).subcommands = t.subcommands := by
    intro t; unfold OptionTypes.addLong; (repeat' split) <;> exact ⟨rfl, rfl⟩
  have h2 : ∀ t : OptionTypes, (t.addOld o).positionals = t.positionals ∧ (t.addOld o).subcommands = t.subcommands := by
    intro t; unfold OptionTypes.addOld; (repeat' split) <;> exact ⟨rfl, rfl⟩
  have h3 : ∀ t : OptionTypes, (t.addShort o).positionals = t.positionals ∧ (t.addShort o).subcommands = t.subcommands := by
    intro t; unfold OptionTypes.addShort; (repeat' split) <;> exact ⟨rfl, rfl⟩
  unfold OptionTypes.addOption
  rw [(h3 _).1, (h3 _).2, (h2 _).1, (h2 _).2, (h1 _).1, (h1 _).2]
  exact ⟨rfl, rfl⟩

theorem addCmd_positionals (t : OptionTypes) (c : Cmd) :
    (t.addCmd c).positionals = (t.positionals || (!c.data.positionals.isEmpty || (c.sub.isSome && !c.children.isEmpty))) := by
  unfold OptionTypes.addCmd
  simp only
  refine (foldl_flag (fun t : OptionTypes => t.positionals) OptionTypes.addOption (fun _ => false)
    (fun t o => by simp [addOption_positionals]) _ _).trans ?_
  cases c.data.positionals.isEmpty <;> cases c.sub.isSome && !c.children.isEmpty <;> simp

theorem addCmd_subcommands (t : OptionTypes) (c : Cmd) :
    (t.addCmd c).subcommands = (t.subcommands || (c.sub.isSome && !c.children.isEmpty)) := by
  unfold OptionTypes.addCmd
  simp only
  refine (foldl_flag (fun t : OptionTypes => t.subcommands) OptionTypes.addOption (fun _ => false)
    (fun t o => by simp [addOption_positionals]) _ _).trans ?_
  cases c.data.positionals.isEmpty <;> cases c.sub.isSome && !c.children.isEmpty <;> simp

theorem style_iff {s : Str} (h : IsOption s) (st : QStyle) :
    (HasStyle st s ↔ (match st with
      | .long => isLongOptionString s | .short => isShortOptionString s | .old => isOldOptionString s) = true) ∧
    (HasStyle st s ↔ qstyle s = st) := by
  obtain ⟨hne, c, cs, rfl, -⟩ := h
  by_cases hc : c = '-'
  · subst hc
    cases cs with
    | nil => exact absurd rfl hne
    | cons d cs =>
      cases st <;> simp [HasStyle, IsLong, IsShort, IsOld, isLongOptionString, isShortOptionString, isOldOptionString,
        startsWith, qstyle]
  · cases cs with
    | nil =>
      cases st <;> simp [HasStyle, IsLong, IsShort, IsOld, isLongOptionString, isShortOptionString, isOldOptionString,
        startsWith, qstyle, hc]
    | cons d cs =>
      cases st <;> simp [HasStyle, IsLong, IsShort, IsOld, isLongOptionString, isShortOptionString, isOldOptionString,
        startsWith, qstyle, hc]

theorem styled_iff {o : Opt} (h : ∀ s ∈ o.strings, IsOption s) (st : QStyle) :
    (o.styled st).isEmpty = false ↔ ∃ s ∈ o.strings, HasStyle st s := by
  have : (o.styled st).isEmpty = false ↔ ∃ s, s ∈ o.styled st := by
    cases o.styled st with
    | nil => simp
    | cons a l => simp
  rw [this]
  constructor
  · rintro ⟨s, hs⟩
    have hm : s ∈ o.strings := by
      cases st <;> exact (List.mem_filter.mp hs).1
    refine ⟨s, hm, ((style_iff (h s hm) st).1).mpr ?_⟩
    cases st <;> exact (List.mem_filter.mp hs).2
  · rintro ⟨s, hs, hst⟩
    refine ⟨s, ?_⟩
    have := ((style_iff (h s hs) st).1).mp hst
    cases st <;> exact List.mem_filter.mpr ⟨hs, this⟩

/-- **C64 (kinds of options)** The kinds of options found in a command line are exactly those that its commands
have: for every form of option strings and every kind of argument, some command at some depth has an option of
that kind with a string of that form. Likewise for positionals and subcommands. -/
theorem C64_types (root : Cmd) (hv : ∀ s, TreeOption root s → IsOption s) :
    (∀ st k, (definedOptionTypes root).has st k = true ↔
      ∃ parents c, At root parents c ∧ ∃ o ∈ c.data.options, o.kind = k ∧ ∃ s ∈ o.strings, HasStyle st s) ∧
    (∀ st, (definedOptionTypes root).any st = true ↔ ∃ s, TreeOption root s ∧ HasStyle st s) ∧
    ((definedOptionTypes root).positionals = true ↔
      ∃ parents c, At root parents c ∧ (c.data.positionals ≠ [] ∨ (c.sub ≠ none ∧ c.children ≠ []))) ∧
    ((definedOptionTypes root).subcommands = true ↔
      ∃ parents c, At root parents c ∧ c.sub ≠ none ∧ c.children ≠ []) := by
  have hhas : ∀ st k, (definedOptionTypes root).has st k = true ↔
      ∃ parents c, At root parents c ∧ ∃ o ∈ c.data.options, o.kind = k ∧ ∃ s ∈ o.strings, HasStyle st s := by
    intro st k
    unfold definedOptionTypes
    rw [(foldl_flag (fun t : OptionTypes => t.has st k) OptionTypes.addCmd _ (has_addCmd st k) root.all {} :
      (root.all.foldl OptionTypes.addCmd {}).has st k = _)]
    have h0 : ({} : OptionTypes).has st k = false := by cases st <;> cases k <;> rfl
    rw [h0, Bool.false_or, List.any_eq_true]
    constructor
    · rintro ⟨c, hc, h⟩
      obtain ⟨o, ho, h⟩ := List.any_eq_true.mp h
      obtain ⟨parents, hat⟩ := (mem_all_iff root c).mp hc
      simp only [Bool.and_eq_true, Bool.not_eq_true', decide_eq_true_eq] at h
      exact ⟨parents, c, hat, o, ho, h.2, (styled_iff (fun s hs => hv s ⟨parents, c, hat, o, ho, hs⟩) st).mp h.1⟩
    · rintro ⟨parents, c, hat, o, ho, hk, hs⟩
      refine ⟨c, at_all hat, List.any_eq_true.mpr ⟨o, ho, ?_⟩⟩
      simp only [Bool.and_eq_true, Bool.not_eq_true', decide_eq_true_eq]
      exact ⟨(styled_iff (fun s hs => hv s ⟨parents, c, hat, o, ho, hs⟩) st).mpr hs, hk⟩
  refine ⟨hhas, ?_, ?_, ?_⟩
  · intro st
    have hany : (definedOptionTypes root).any st = true ↔ ∃ k, (definedOptionTypes root).has st k = true := by
      have e : (definedOptionTypes root).any st = ((definedOptionTypes root).has st .required ||
          (definedOptionTypes root).has st .optional || (definedOptionTypes root).has st .flag) := by
        cases st <;> rfl
      rw [e]
      constructor
      · intro h
        simp only [Bool.or_eq_true] at h
        rcases h with (h | h) | h <;> exact ⟨_, h⟩
      · rintro ⟨k, h⟩
        cases k <;> simp [h]
    rw [hany]
    constructor
    · rintro ⟨k, h⟩
      obtain ⟨parents, c, hat, o, ho, -, s, hs, hst⟩ := (hhas st k).mp h
      exact ⟨s, ⟨parents, c, hat, o, ho, hs⟩, hst⟩
    · rintro ⟨s, ⟨parents, c, hat, o, ho, hs⟩, hst⟩
      exact ⟨o.kind, (hhas st o.kind).mpr ⟨parents, c, hat, o, ho, rfl, s, hs, hst⟩⟩
  · unfold definedOptionTypes
    rw [(foldl_flag (fun t : OptionTypes => t.positionals) OptionTypes.addCmd _ addCmd_positionals root.all {} :
      (root.all.foldl OptionTypes.addCmd {}).positionals = _), Bool.false_or, List.any_eq_true]
    constructor
    · rintro ⟨c, hc, h⟩
      obtain ⟨parents, hat⟩ := (mem_all_iff root c).mp hc
      exact ⟨parents, c, hat, by simpa [Option.isSome_iff_ne_none] using h⟩
    · rintro ⟨parents, c, hat, h⟩
      exact ⟨c, at_all hat, by simpa [Option.isSome_iff_ne_none] using h⟩
  · unfold definedOptionTypes
    rw [(foldl_flag (fun t : OptionTypes => t.subcommands) OptionTypes.addCmd _ addCmd_subcommands root.all {} :
      (root.all.foldl OptionTypes.addCmd {}).subcommands = _), Bool.false_or, List.any_eq_true]
    constructor
    · rintro ⟨c, hc, h⟩
      obtain ⟨parents, hat⟩ := (mem_all_iff root c).mp hc
      exact ⟨parents, c, hat, by simpa [Option.isSome_iff_ne_none] using h⟩
    · rintro ⟨parents, c, hat, h⟩
      exact ⟨c, at_all hat, by simpa [Option.isSome_iff_ne_none] using h⟩

/-! ## Leaving out parts -/

theorem sel_ext {a b : ZshArrays} (h : ∀ st k, a.sel st k = b.sel st k) : a = b := by
  have h1 := h .long .required; have h2 := h .long .optional; have h3 := h .long .flag
  have h4 := h .short .required; have h5 := h .short .optional; have h6 := h .short .flag
  have h7 := h .old .required; have h8 := h .old .optional; have h9 := h .old .flag
  cases a; cases b
  simp only [ZshArrays.sel] at h1 h2 h3 h4 h5 h6 h7 h8 h9
  simp [h1, h2, h3, h4, h5, h6, h7, h8, h9]

theorem classify_parts {s : Str} (h : PlainOption s) (k : ArgKind) (long short old : Bool)
    (he : enabled long short old (qstyle s) = true) (a : ZshArrays) :
    zshClassify long short old a (queryField k s) = zshClassify true true true a (queryField k s) := by
  refine sel_ext fun st k' => ?_
  rw [sel_classify h k long short old he, sel_classify h k true true true (by cases qstyle s <;> rfl)]

theorem arrays_parts (long short old : Bool) (options : List Opt) (hp : ∀ e ∈ tableOf options, PlainOption e.1)
    (he : ∀ e ∈ tableOf options, enabled long short old (qstyle e.1) = true) :
    zshArrays long short old (queryOptionStrings options) = zshArrays true true true (queryOptionStrings options) := by
  unfold zshArrays
  rw [queryOptionStrings_eq, zshFields_join _ hp]
  generalize ({} : ZshArrays) = a
  revert hp he
  generalize tableOf options = t
  intro hp he
  induction t generalizing a with
  | nil => rfl
  | cons e t ih =>
    simp only [List.map_cons, List.foldl_cons]
    rw [classify_parts (hp e (by simp)) e.2 _ _ _ (he e (by simp))]
    exact ih _ (fun x hx => hp x (by simp [hx])) (fun x hx => he x (by simp [hx]))

/-- Options are only in the arrays for the parts that are compiled in. -/
def OnlyParts (long short old : Bool) (a : ZshArrays) : Prop :=
  ∀ st k s, s ∈ a.sel st k → enabled long short old st = true

theorem arrays_only (long short old : Bool) (options : List Opt) (hp : ∀ e ∈ tableOf options, PlainOption e.1)
    (he : ∀ e ∈ tableOf options, enabled long short old (qstyle e.1) = true) :
    OnlyParts long short old (zshArrays true true true (queryOptionStrings options)) := by
  intro st k s hs
  unfold zshArrays at hs
  rw [queryOptionStrings_eq, zshFields_join _ hp, sel_foldl _ _ _ _ _ hp (by intro e _; cases qstyle e.1 <;> rfl)] at hs
  rcases hs with hs | ⟨hs, rfl⟩
  · exfalso; revert hs; cases st <;> cases k <;> simp [ZshArrays.sel]
  · exact he _ hs

theorem only_nil {long short old : Bool} {a : ZshArrays} (h : OnlyParts long short old a) {st : QStyle}
    (hf : enabled long short old st = false) (k : ArgKind) : a.sel st k = [] := by
  cases hs : a.sel st k with
  | nil => rfl
  | cons s l =>
    have := h st k s (by rw [hs]; simp)
    rw [hf] at this; cases this

/-- How the effect of a word with some parts left out compares with its effect with all parts. -/
def SameEffect (long : Bool) (arg : Str) (e f : WordEffect) : Prop :=
  e = f ∨ (long = false ∧ startsWith arg ['-', '-'] = true ∧ e = {} ∧ f = { having := [(arg, [])] })

theorem zshWord_parts {long short old : Bool} {a : ZshArrays} (h : OnlyParts long short old a) (arg : Str)
    (next : Option Str) :
    SameEffect long arg (zshWord long short old a arg next) (zshWord true true true a arg next) := by
  unfold SameEffect zshWord
  by_cases h1 : startsWith arg ['-', '-'] = true
  · simp only [h1, if_true]
    by_cases h2 : arg.contains '=' = true
    · simp only [h2, if_true, true_or]
    · simp only [h2, if_false, Bool.false_eq_true]
      cases long with
      | true => simp
      | false =>
        have h3 : a.longArg = [] := only_nil h (st := .long) rfl .required
        simp [h3]
  · simp only [h1, if_false, Bool.false_eq_true]
    by_cases h2 : (startsWith arg ['-'] && decide (arg.length ≥ 2)) = true
    · simp only [h2, if_true]
      left
      have hold : (if old then zshOld a next arg else none) = zshOld a next arg := by
        cases old with
        | true => rfl
        | false =>
          have h3 : a.oldArg = [] := only_nil h (st := .old) rfl .required
          have h4 : a.oldOpt = [] := only_nil h (st := .old) rfl .optional
          have h5 : a.oldFlag = [] := only_nil h (st := .old) rfl .flag
          simp [zshOld, h3, h4, h5]
      rw [hold]
      cases zshOld a next arg with
      | some e => rfl
      | none =>
        cases short with
        | true => rfl
        | false =>
          have h3 : a.shortArg = [] := only_nil h (st := .short) rfl .required
          have h4 : a.shortOpt = [] := only_nil h (st := .short) rfl .optional
          have h5 : a.shortFlag = [] := only_nil h (st := .short) rfl .flag
          have h6 : ∀ cs, zshCluster a next cs = {} := by
            intro cs
            induction cs with
            | nil => rfl
            | cons c cs ih => simp [zshCluster, h3, h4, h5, ih]
          simp [h6]
    · simp [h2]

/-- How the records of two parsers compare. -/
structure SameRecord (long : Bool) (p p' : Parsed) : Prop where
  positionals : p.positionals = p'.positionals
  incomplete : p.incomplete = p'.incomplete
  fewer : p.having.Sublist p'.having
  values : ∀ s, (long = true ∨ startsWith s ['-', '-'] = false) → p.valuesOf s = p'.valuesOf s
  missing : ∀ o ∈ p'.having, o ∉ p.having → long = false ∧ startsWith o.1 ['-', '-'] = true ∧ o.2 = []

theorem SameRecord.refl {long : Bool} {p : Parsed} : SameRecord long p p :=
  ⟨Eq.refl _, Eq.refl _, List.Sublist.refl _, fun _ _ => Eq.refl _, fun _ h hn => absurd h hn⟩

theorem SameRecord.apply {long : Bool} {p p' : Parsed} (h : SameRecord long p p') {arg : Str} {e f : WordEffect}
    (he : SameEffect long arg e f) : SameRecord long (p.apply e) (p'.apply f) ∧ e.skip = f.skip := by
  have hvals : ∀ (p : Parsed) (e : WordEffect) (s : Str), (p.apply e).valuesOf s =
      p.valuesOf s ++ (e.having.filter (fun o => decide (o.1 = s))).map (·.2) := by
    intro p e s
    simp [Parsed.apply, Parsed.valuesOf]
  rcases he with rfl | ⟨hl, hs, rfl, rfl⟩
  · refine ⟨⟨by simp [Parsed.apply, h.positionals], by simp [Parsed.apply, h.incomplete],
      List.Sublist.append h.fewer (List.Sublist.refl _), fun s hk => by rw [hvals, hvals, h.values s hk], ?_⟩, rfl⟩
    intro o ho hn
    simp only [Parsed.apply, List.mem_append] at ho hn
    rcases ho with ho | ho
    · exact h.missing o ho (fun hc => hn (Or.inl hc))
    · exact absurd (Or.inr ho) hn
  · refine ⟨⟨by simp [Parsed.apply, h.positionals], by simp [Parsed.apply, h.incomplete], ?_, ?_, ?_⟩, rfl⟩
    · simp only [Parsed.apply, List.append_nil]
      exact h.fewer.trans (List.sublist_append_left _ _)
    · intro s hk
      rw [hvals, hvals, h.values s hk]
      have hne : arg ≠ s := by
        rintro rfl
        rcases hk with hk | hk
        · rw [hl] at hk; cases hk
        · rw [hs] at hk; cases hk
      simp [hne]
    · intro o ho hn
      simp only [Parsed.apply, List.append_nil, List.mem_append, List.mem_singleton] at ho hn
      rcases ho with ho | rfl
      · exact h.missing o ho hn
      · exact ⟨hl, hs, Eq.refl _⟩

theorem SameRecord.dashes {long : Bool} {p p' : Parsed} (h : SameRecord long p p') (ws : List Str) :
    SameRecord long ⟨p.having, p.positionals ++ ws, p.incomplete⟩ ⟨p'.having, p'.positionals ++ ws, p'.incomplete⟩ :=
  ⟨by simp [h.positionals], by simp [h.incomplete], h.fewer, h.values, h.missing⟩

theorem zshLoop_parts {long short old : Bool} {a : ZshArrays} (h : OnlyParts long short old a) (q : Str → Str)
    (words : List Str) : ∀ (p p' : Parsed) (skip : Bool), SameRecord long p p' →
    SameRecord long (zshLoop long short old a q p skip words) (zshLoop true true true a q p' skip words) := by
  induction words with
  | nil => intro p p' skip hr; cases skip <;> simpa [zshLoop] using hr
  | cons w ws ih =>
    intro p p' skip hr
    cases skip with
    | true => rw [zshLoop, zshLoop]; exact ih p p' false hr
    | false =>
      rw [zshLoop, zshLoop]
      by_cases hw : q w = ['-', '-']
      · rw [if_pos hw, if_pos hw]; exact hr.dashes ws
      · rw [if_neg hw, if_neg hw]
        obtain ⟨h1, h2⟩ := hr.apply (zshWord_parts h (q w) (ws.head?.map q))
        simp only
        rw [h2]
        exact ih _ _ _ h1

/-- `get` finds only options for the parts that are compiled in. -/
def OnlyGets (long short old : Bool) (get : Str → Option ArgKind) : Prop :=
  ∀ s k, LookedUp s → get s = some k → PlainOption s ∧ enabled long short old (qstyle s) = true

theorem get_none {long short old : Bool} {get : Str → Option ArgKind} (h : OnlyGets long short old get) {s : Str}
    (hs : LookedUp s) (hf : PlainOption s → enabled long short old (qstyle s) = false) : get s = none := by
  cases hg : get s with
  | none => rfl
  | some k =>
    obtain ⟨h1, h2⟩ := h s k hs hg
    rw [hf h1] at h2; cases h2

theorem beforeEq_lookedUp (s : Str) : LookedUp (beforeEq s) := by
  refine Or.inl fun h => ?_
  have := List.all_takeWhile (p := (· != '=')) (l := s)
  rw [List.all_eq_true] at this
  have := this _ h
  simp at this

theorem startsWith_beforeEq {s : Str} (h : startsWith s ['-', '-'] = false) : startsWith (beforeEq s) ['-', '-'] = false := by
  match s, h with
  | [], _ => rfl
  | [c], _ => by_cases hc : c = '=' <;> simp [beforeEq, startsWith, hc]
  | c :: d :: r, h =>
    by_cases hc : c = '='
    · simp [beforeEq, startsWith, hc]
    · by_cases hd : d = '='
      · simp [beforeEq, startsWith, hc, hd]
      · simp [startsWith] at h
        simp [beforeEq, startsWith, hc, hd]
        exact h

theorem fishOld_not {get : Str → Option ArgKind} (next : Option Str) {arg : Str}
    (h1 : '=' ∈ arg → get (beforeEq arg) = none) (h2 : '=' ∉ arg → get arg = none) : fishOld get next arg = none := by
  unfold fishOld
  by_cases he : '=' ∈ arg
  · simp [he, h1 he]
  · simp [he, h2 he]

/-- A word is not a one-letter option with `=` after the letter. -/
def NoShortEq (get : Str → Option ArgKind) (arg : Str) : Prop :=
  ∀ c r, arg = '-' :: c :: '=' :: r → get ['-', c] = none

theorem fishWord_parts {long short old : Bool} {get : Str → Option ArgKind} (h : OnlyGets long short old get) (arg : Str)
    (next : Option Str) (hno : old = true ∨ NoShortEq get arg) :
    SameEffect long arg (fishWord long short old get arg next) (fishWord true true true get arg next) := by
  unfold SameEffect fishWord
  by_cases h0 : arg = ['-']
  · simp [h0]
  simp only [h0, if_false]
  by_cases h1 : startsWith arg ['-', '-'] = true
  · simp only [h1, if_true]
    by_cases h2 : arg.contains '=' = true
    · simp only [h2, if_true, true_or]
    · simp only [h2, if_false, Bool.false_eq_true]
      cases long with
      | true => simp
      | false =>
        have h3 : get arg = none := get_none h (Or.inl (by simpa using h2)) (fun _ => by simp [qstyle, h1, enabled])
        simp [h3]
  · simp only [h1, if_false, Bool.false_eq_true]
    by_cases h2 : startsWith arg ['-'] = true
    · simp only [h2, if_true]
      left
      have h1' : startsWith arg ['-', '-'] = false := by simpa using h1
      obtain ⟨c, r, rfl⟩ : ∃ c r, arg = '-' :: c :: r := by
        match arg, h2, h0 with
        | [c], h2, h0 => simp [startsWith] at h2; exact absurd (by rw [h2]) h0
        | c :: d :: r, h2, _ => simp [startsWith] at h2; exact ⟨d, r, by rw [h2]⟩
      have hc : c ≠ '-' := by rintro rfl; simp [startsWith] at h1
      have hshort : short = false → ∀ d, get ['-', d] = none := by
        rintro rfl d
        refine get_none h (lookedUp_letter d) (fun hp => ?_)
        have hd : d ≠ '-' := by rintro rfl; exact hp.2.1 rfl
        rw [qstyle_short hd]; rfl
      have hdash : get ['-'] = none := get_none h (Or.inl (by simp)) (fun hp => by
        obtain ⟨⟨c, cs, he⟩, -⟩ := hp; simp at he)
      have hcl : short = false → ∀ cs, fishCluster get next cs = {} := by
        intro hs cs
        induction cs with
        | nil => rfl
        | cons d cs ih => simp [fishCluster, hshort hs d, ih]
      have hlast : (if short = true then fishCluster get next (c :: r) else {}) = fishCluster get next (c :: r) := by
        cases short with
        | true => rfl
        | false => simp [hcl rfl]
      simp only [List.tail_cons, hlast]
      cases old with
      | true => rfl
      | false =>
        simp only [Bool.false_eq_true, if_false]
        have hno := hno.resolve_left (by simp)
        have hold : ∀ s, startsWith s ['-', '-'] = false → s.length ≠ 2 → LookedUp s → get s = none := by
          intro s hs hl hk
          refine get_none h hk (fun hp => ?_)
          simp [qstyle, hs, hl, enabled]
        by_cases heq : '=' ∈ ('-' :: c :: r)
        · rw [fishOld_not]
          · intro _
            by_cases hb : (beforeEq ('-' :: c :: r)).length = 2
            · obtain ⟨pp, rr, he, hp⟩ := split_first_eq heq
              rw [he, beforeEq_append hp] at hb ⊢
              match pp, hb, he with
              | [x, y], _, he =>
                have he' := he
                simp at he
                obtain ⟨rfl, rfl, rfl⟩ := he
                exact hno c rr (by simp)
            · exact hold _ (startsWith_beforeEq h1') hb (beforeEq_lookedUp _)
          · exact fun hn => absurd heq hn
        · cases r with
          | nil =>
            unfold fishOld
            rw [if_neg (by simpa using heq)]
            cases hk : get ['-', c] with
            | none => rfl
            | some k => cases k <;> simp [fishCluster, hk]
          | cons d r =>
            have h5 : get ('-' :: c :: d :: r) = none := hold _ h1' (by simp) (Or.inl heq)
            rw [fishOld_not]
            · exact fun hn => absurd hn heq
            · exact fun _ => h5
    · simp [h2]

theorem fishLoop_parts {long short old : Bool} {getAt : List Str → Str → Option ArgKind}
    (h : ∀ ps, OnlyGets long short old (getAt ps)) (words : List Str)
    (hno : old = true ∨ ∀ w ∈ words, ∀ ps, NoShortEq (getAt ps) w) :
    ∀ (p p' : Parsed) (skip : Bool), SameRecord long p p' →
    SameRecord long (fishLoop long short old getAt p skip words) (fishLoop true true true getAt p' skip words) := by
  induction words with
  | nil => intro p p' skip hr; cases skip <;> simpa [fishLoop] using hr
  | cons w ws ih =>
    have ih := ih (hno.imp_right fun hno x hx => hno x (by simp [hx]))
    intro p p' skip hr
    cases skip with
    | true => rw [fishLoop, fishLoop]; exact ih p p' false hr
    | false =>
      rw [fishLoop, fishLoop]
      by_cases hw : w = ['-', '-']
      · rw [if_pos hw, if_pos hw]; exact hr.dashes ws
      · rw [if_neg hw, if_neg hw]
        obtain ⟨h1, h2⟩ := hr.apply (fishWord_parts (h p.positionals) w ws.head? (hno.imp_right fun hno => hno w (by simp) _))
        simp only
        rw [← hr.positionals, h2]
        exact ih _ _ _ h1

/-! ## The helpers of a script -/

theorem treeOption_plain {root : Cmd} (h : PlainTree root) {s : Str} (hs : TreeOption root s) : PlainOption s := by
  obtain ⟨⟨hne, c, cs, rfl, hsp⟩, heq⟩ := h s hs
  refine ⟨⟨c, cs, rfl⟩, hne, heq, ?_⟩
  intro hm
  rcases List.mem_cons.mp hm with hm | hm
  · exact absurd hm (by decide)
  · have := (hsp _ hm).1
    revert this; decide

theorem types_enabled {root : Cmd} (h : PlainTree root) {s : Str} (hs : TreeOption root s) :
    enabled (definedOptionTypes root).long (definedOptionTypes root).short (definedOptionTypes root).old (qstyle s) = true := by
  have h1 := ((C64_types root (fun s hs => (h s hs).1)).2.1 (qstyle s)).mpr
    ⟨s, hs, ((style_iff (h s hs).1 (qstyle s)).2).mpr rfl⟩
  revert h1
  cases qstyle s <;> exact id

theorem table_tree {root : Cmd} {parents : List Cmd} {c : Cmd} (hat : At root parents c) {wp : Bool}
    {e : Str × ArgKind} (he : e ∈ tableOf (getOptions parents c wp false)) : TreeOption root e.1 := by
  unfold tableOf at he
  rw [List.mem_flatMap] at he
  obtain ⟨o, ho, he⟩ := he
  rw [List.mem_map] at he
  obtain ⟨s, hs, rfl⟩ := he
  obtain ⟨qs, x, hx, hox⟩ := getOptions_from hat ho
  exact ⟨qs, x, hx, o, hox, hs⟩

theorem tree_values {root : Cmd} {s : Str} (hp : PlainTree root) (hs : TreeOption root s) :
    (definedOptionTypes root).long = true ∨ startsWith s ['-', '-'] = false := by
  have := types_enabled hp hs
  by_cases h : startsWith s ['-', '-'] = true
  · left
    have hq : qstyle s = .long := by simp [qstyle, h]
    rw [hq] at this
    exact this
  · exact Or.inr (by simpa using h)

/-- **C64 (Zsh, partial)** Leaving out parts of the Zsh helper changes nothing that the script asks for. For every
command line, every command of it and every list of words, the helper put into the script finds the same
positionals and the same option without its argument as the complete helper, and for every option of the command
line the same values in the same order. It records nothing else, and what it leaves out is only words `--...`
without argument, when no command has long options. Missing: option strings containing `=`, see `C64_zsh_equals`. -/
theorem C64_zsh_partial (root : Cmd) (hp : PlainTree root) (parents : List Cmd) (c : Cmd) (hat : At root parents c)
    (withParents : Bool) (q : Str → Str) (words : List Str) :
    let opts := queryOptionStrings (getOptions parents c withParents false)
    let p := zshQueryOf root opts q words
    let full := zshQueryInit true true true opts q words
    p.positionals = full.positionals ∧ p.incomplete = full.incomplete ∧
    (∀ s, TreeOption root s → p.valuesOf s = full.valuesOf s) ∧
    p.having.Sublist full.having ∧
    (∀ o ∈ full.having, o ∉ p.having → o.2 = [] ∧ ['-', '-'] <+: o.1 ∧ ∀ s, TreeOption root s → ¬ IsLong s) := by
  intro opts p full
  have h1 : ∀ e ∈ tableOf (getOptions parents c withParents false), PlainOption e.1 :=
    fun e he => treeOption_plain hp (table_tree hat he)
  have h2 := fun e he => types_enabled hp (table_tree (wp := withParents) hat (e := e) he)
  have hr : SameRecord (definedOptionTypes root).long p full := by
    show SameRecord _ (zshQueryInit _ _ _ _ _ _) (zshQueryInit _ _ _ _ _ _)
    unfold zshQueryInit
    rw [show zshArrays _ _ _ opts = _ from arrays_parts _ _ _ _ h1 h2]
    exact zshLoop_parts (arrays_only _ _ _ _ h1 h2) q words _ _ _ .refl
  refine ⟨hr.positionals, hr.incomplete, fun s hs => hr.values s (tree_values hp hs), hr.fewer, ?_⟩
  intro o ho hn
  obtain ⟨hl, hs, hv⟩ := hr.missing o ho hn
  refine ⟨hv, (startsWith_prefix _ _).mp hs, ?_⟩
  rintro s hs ⟨c, cs, rfl⟩
  have := types_enabled hp hs
  rw [qstyle_long] at this
  simp only [enabled] at this
  rw [hl] at this; cases this

theorem fishTable_tree {root : Cmd} {d : List FishComp × List Opt} (hd : d ∈ fishTable root) {e : Str × ArgKind}
    (he : e ∈ tableOf d.2) : TreeOption root e.1 := by
  unfold fishTable at hd
  rw [List.mem_map] at hd
  obtain ⟨x, hx, rfl⟩ := hd
  exact table_tree ((mem_walk_iff root x.1 x.2).mp hx) he

theorem fishGet_tree {root : Cmd} (hp : PlainTree root) {subcommands : Bool} {ps : List Str} {s : Str} {k : ArgKind}
    (hs : LookedUp s) (h : fishGetOption subcommands (fishTreeDefs root) ps s = some k) : TreeOption root s := by
  rw [fishTreeDefs_eq, fishGetOption_eq _ _ (fun d hd e he => treeOption_plain hp (fishTable_tree hd he)) _ _ hs] at h
  unfold fishKindAt at h
  obtain ⟨d, hd, hk⟩ := List.exists_of_findSome?_eq_some h
  have hd : d ∈ fishTable root := by simpa using (List.mem_filter.mp hd).1
  unfold kindIn at hk
  cases hf : (tableOf d.2).find? (fun e => e.1 == s) with
  | none => rw [hf] at hk; simp at hk
  | some e =>
    have h1 := List.find?_some hf
    have h2 := List.mem_of_find?_eq_some hf
    simp at h1
    rw [← h1]
    exact fishTable_tree hd h2

/-- **C64 (Fish, partial)** Leaving out parts of the Fish helper changes nothing that the script asks for: for every
command line and every list of words, the helper put into the script finds the same positionals, the same option
without its argument, and for every option of the command line the same values in the same order as the helper with
all parts for options. It records nothing else, and what it leaves out is only words `--...` without argument, when
no command has long options. Missing: a one-letter option followed by `=` in the same word, see
`C64_fish_short_equals`; option strings containing `=`. (The part for subcommands is not left out here, see
`C58_global_option_lost`.) -/
theorem C64_fish_partial (root : Cmd) (hp : PlainTree root) (words : List Str)
    (hw : ∀ w ∈ words, ∀ c r, w = '-' :: c :: '=' :: r → ¬ TreeOption root ['-', c]) :
    let p := fishQueryOf root words
    let full := fishQueryInit true true true (definedOptionTypes root).subcommands (fishTreeDefs root) words
    p.positionals = full.positionals ∧ p.incomplete = full.incomplete ∧
    (∀ s, TreeOption root s → p.valuesOf s = full.valuesOf s) ∧
    p.having.Sublist full.having ∧
    (∀ o ∈ full.having, o ∉ p.having → o.2 = [] ∧ ['-', '-'] <+: o.1 ∧ ∀ s, TreeOption root s → ¬ IsLong s) := by
  intro p full
  have hr : SameRecord (definedOptionTypes root).long p full := by
    show SameRecord _ (fishQueryInit _ _ _ _ _ _) (fishQueryInit _ _ _ _ _ _)
    unfold fishQueryInit
    refine fishLoop_parts ?_ words (Or.inr ?_) _ _ _ .refl
    · intro ps s k hs hk
      have := fishGet_tree hp hs hk
      exact ⟨treeOption_plain hp this, types_enabled hp this⟩
    · intro w hm ps c r he
      cases hk : fishGetOption (definedOptionTypes root).subcommands (fishTreeDefs root) ps ['-', c] with
      | none => rfl
      | some k => exact absurd (fishGet_tree hp (lookedUp_letter c) hk) (hw w hm c r he)
  refine ⟨hr.positionals, hr.incomplete, fun s hs => hr.values s (tree_values hp hs), hr.fewer, ?_⟩
  intro o ho hn
  obtain ⟨hl, hs, hv⟩ := hr.missing o ho hn
  refine ⟨hv, (startsWith_prefix _ _).mp hs, ?_⟩
  rintro s hs ⟨c, cs, rfl⟩
  have := types_enabled hp hs
  rw [qstyle_long] at this
  simp only [enabled] at this
  rw [hl] at this; cases this

/-- A one-letter option followed by `=`: if no command has an old-style option, the Fish helper takes the `=` as
part of the argument; if some command has one, it does not. -/
theorem C64_fish_short_equals :
    let one : Cmd := .node { prog := S "prog", options := [{ strings := [S "-o"], complete := some [] }] } none []
    let two : Cmd := .node { prog := S "prog", options := [{ strings := [S "-o"], complete := some [] },
      { strings := [S "-old"] }] } none []
    (fishQueryOf one [S "-o=x"]).valuesOf (S "-o") = [S "=x"] ∧
    (fishQueryOf two [S "-o=x"]).valuesOf (S "-o") = [S "x"] := by decide +kernel

/-- An option string ending with `=`: the Zsh helper of the script takes the flag `-a=` for what it is, the complete
helper takes it for an option `-a` with an argument. -/
theorem C64_zsh_equals :
    let root : Cmd := .node { prog := S "prog", options := [{ strings := [S "-a="] }] } none []
    let opts := queryOptionStrings (getOptions [] root true false)
    (zshQueryOf root opts id [S "-a", S "x"]).positionals = [S "x"] ∧
    (zshQueryInit true true true opts id [S "-a", S "x"]).positionals = [] := by decide +kernel

/-- A case of `C64_zsh_partial` and `C64_fish_partial`: only one-letter options are defined, and the helpers of the
script do not record an unknown `--what`. -/
theorem C64_example :
    let root : Cmd := .node { prog := S "prog", options := [{ strings := [S "-v"] },
      { strings := [S "-o"], complete := some [] }] } none []
    let opts := queryOptionStrings (getOptions [] root true false)
    let words := [S "-vo", S "out", S "--what", S "a"]
    PlainTree root ∧ (definedOptionTypes root).short = true ∧ (definedOptionTypes root).long = false ∧
    zshQueryOf root opts id words = ⟨[(S "-v", []), (S "-o", S "out")], [S "a"], []⟩ ∧
    zshQueryInit true true true opts id words = ⟨[(S "-v", []), (S "-o", S "out"), (S "--what", [])], [S "a"], []⟩ ∧
    (∀ w ∈ words, ∀ c r, w = '-' :: c :: '=' :: r → ¬ TreeOption root ['-', c]) ∧
    fishQueryOf root words = ⟨[(S "-v", []), (S "-o", S "out")], [S "a"], []⟩ := by
  intro root opts words
  refine ⟨?_, by decide +kernel, by decide +kernel, by decide +kernel, by decide +kernel, ?_, by decide +kernel⟩
  · rintro s ⟨parents, c, hat, o, ho, hs⟩
    have hc : c = root := by
      cases hat with
      | root => rfl
      | child h hd =>
        have : ∀ parents c, At root parents c → c = root := by
          intro parents c h
          induction h with
          | root => rfl
          | child _ hd ih => subst ih; simp [root, Cmd.children] at hd
        exact this _ _ (.child h hd)
    subst hc
    have ho : o = { strings := [S "-v"] } ∨ o = { strings := [S "-o"], complete := some [] } := by
      simpa [root, Cmd.data] using ho
    rcases ho with rfl | rfl
    · have : s = S "-v" := by simpa using hs
      subst this
      exact ⟨⟨by decide, 'v', [], rfl, by decide⟩, by decide⟩
    · have : s = S "-o" := by simpa using hs
      subst this
      exact ⟨⟨by decide, 'o', [], rfl, by decide⟩, by decide⟩
  · intro w hw c r he
    have : '=' ∉ w := by
      simp only [words, List.mem_cons, List.not_mem_nil, or_false] at hw
      rcases hw with rfl | rfl | rfl | rfl <;> decide
    exact absurd (by rw [he]; simp) this

end CC
