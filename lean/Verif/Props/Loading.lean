import Verif.Props.Validator
import Verif.Props.DictImport
import Verif.Props.Compat
import Verif.Props.BashPatterns
import Verif.Props.StrUtils
/-!
# C61: what passes validation can be imported
-/

namespace CC

/-! ## Specification -/

/-- Attributes that the validator lets be null, but the import does not. -/
def optionNoNull : List Str := [S "optional_arg", S "final", S "hidden", S "nosort", S "group"]

/-- The same for positionals. -/
def positionalNoNull : List Str := [S "repeatable", S "nosort"]

/-- The same for definitions. -/
def definitionNoNull : List Str := [S "options", S "positionals"]

/-- No attribute that must not be null is null, in the definition, its options and its positionals. -/
structure NoNulls (d : List (Key × Val)) : Prop where
  definition : ∀ k ∈ definitionNoNull, getKey d k ≠ some .none
  options : ∀ l o, getKey d (S "options") = some (.list l) → .dict o ∈ l → ∀ k ∈ optionNoNull, getKey o k ≠ some .none
  positionals : ∀ l o, getKey d (S "positionals") = some (.list l) → .dict o ∈ l →
    ∀ k ∈ positionalNoNull, getKey o k ≠ some .none

/-- The only white space in the name are blanks. -/
def BlanksOnly (d : List (Key × Val)) : Prop :=
  ∀ s, getKey d (S "prog") = some (.str s) → ∀ c ∈ s, pyIsSpace c = true → c = ' '

/-! ## Reading one attribute -/

theorem readStr_ok {d : List (Key × Val)} {k : Str} (h : ∀ v, getKey d k = some v → Doc.OrNone Doc.Text v) :
    ∃ r, readStr? d k = .ok r ∧ ∀ s, r = some s → getKey d k = some (.str s) := by
  unfold readStr?
  cases hg : getKey d k with
  | none => exact ⟨none, rfl, by simp⟩
  | some v =>
    rcases h v hg with rfl | ⟨s, rfl⟩
    · exact ⟨none, rfl, by simp⟩
    · exact ⟨some s, rfl, by simp⟩

theorem readBool_ok {d : List (Key × Val)} {k : Str} (h : ∀ v, getKey d k = some v → Doc.OrNone Doc.Flag v)
    (hn : getKey d k ≠ some .none) : ∃ r, readBool d k = .ok r ∧ (r = true → Doc.On d k) := by
  unfold readBool
  cases hg : getKey d k with
  | none => exact ⟨false, rfl, by simp⟩
  | some v =>
    rcases h v hg with rfl | ⟨b, rfl⟩
    · exact absurd hg hn
    · exact ⟨b, rfl, fun hb => by rw [Doc.On, hg, hb]⟩

theorem readExt_ok {d : List (Key × Val)} {k : Str} (h : ∀ v, getKey d k = some v → Doc.ExtendedFlag v) :
    ∃ r, readExt d k = .ok r ∧ (r = .val true → Doc.On d k) := by
  unfold readExt
  cases hg : getKey d k with
  | none => exact ⟨_, rfl, by simp⟩
  | some v =>
    rcases h v hg with ⟨b, rfl⟩ | rfl
    · exact ⟨.val b, rfl, fun hb => by rw [Doc.On, hg]; cases hb; rfl⟩
    · exact ⟨.inherit, rfl, by simp⟩

theorem readList_ok {d : List (Key × Val)} {k : Str} (h : ∀ v, getKey d k = some v → Doc.OrNone Doc.IsList v) :
    ∃ r, readList? d k = .ok r ∧ (∀ l, r = some l ↔ getKey d k = some (.list l)) := by
  unfold readList?
  cases hg : getKey d k with
  | none => exact ⟨none, rfl, by simp⟩
  | some v =>
    rcases h v hg with rfl | ⟨l, rfl⟩
    · exact ⟨none, rfl, by simp⟩
    · exact ⟨some l, rfl, by simp⟩

theorem asStrs_ok {l : List Val} (h : ∀ v ∈ l, Doc.Text v) : ∃ ss, asStrs l = .ok ss ∧ l = ss.map .str := by
  induction l with
  | nil => exact ⟨[], rfl, rfl⟩
  | cons v l ih =>
    obtain ⟨s, rfl⟩ := h v (by simp)
    obtain ⟨ss, h1, rfl⟩ := ih (fun x hx => h x (by simp [hx]))
    exact ⟨s :: ss, by simp [asStrs, h1, bind, Except.bind], rfl⟩

theorem readStrs_ok {d : List (Key × Val)} {k : Str} (h : ∀ v, getKey d k = some v → Doc.OrNone Doc.IsList v)
    (ht : ∀ l, getKey d k = some (.list l) → ∀ v ∈ l, Doc.Text v) :
    ∃ r, readStrs? d k = .ok r ∧ (∀ ss, r = some ss → getKey d k = some (.list (ss.map .str))) ∧
      (r = none → ∀ l, getKey d k ≠ some (.list l)) := by
  obtain ⟨r, hr, hl⟩ := readList_ok h
  unfold readStrs?
  rw [hr]
  cases r with
  | none => exact ⟨none, rfl, by simp, fun _ l h => by have := (hl l).2 h; simp at this⟩
  | some l =>
    have hg := (hl l).1 rfl
    obtain ⟨ss, h1, h2⟩ := asStrs_ok (ht l hg)
    refine ⟨some ss, by simp [bind, Except.bind, h1], fun s hs => ?_, by simp⟩
    cases hs
    rw [hg, h2]

theorem readSep_ok {d : List (Key × Val)} {k : Str} (h : ∀ v, getKey d k = some v →
    v ∈ [Val.str (S "space"), .str (S "equals"), .str (S "both"), .str (S "INHERIT")]) :
    ∃ r, readSep d k = .ok r := by
  unfold readSep
  cases hg : getKey d k with
  | none => exact ⟨_, rfl⟩
  | some v =>
    have := h v hg
    simp only [List.mem_cons, List.not_mem_nil, or_false] at this
    rcases this with rfl | rfl | rfl | rfl <;> exact ⟨_, rfl⟩

theorem readNumber_ok {d : List (Key × Val)} {k : Str} {v : Val} {i : Int} (hv : getKey d k = some v)
    (hi : Doc.Integer v i) (h1 : 1 ≤ i) : ∃ n, readNumber d k = .ok n ∧ 0 < n := by
  unfold readNumber
  rw [hv]
  cases hi with
  | int => exact ⟨_, rfl, by omega⟩
  | yes => exact ⟨_, rfl, by decide⟩
  | no => omega

theorem validateKeys_table {table : List (Str × (Val → Prop))} {d : List (Key × Val)} (h : Doc.Entries table d)
    {allowed : List Str} (ha : ∀ e ∈ d, ∀ k, e.1 = .str k → k ∈ table.map (·.1) → k ∈ allowed) :
    validateKeys d allowed = .ok () := by
  apply validateKeys_ok
  rw [List.all_eq_true]
  intro e he
  obtain ⟨row, hr, hk, _⟩ := h e he
  simp only [keyAllowed, hk]
  exact List.contains_iff_mem.2 (ha e he _ hk (List.mem_map.2 ⟨row, hr, rfl⟩))

/-! ## Options, positionals and definitions -/

theorem getKey_congr {a b : List (Key × Val)} {p : Key → Bool} {k : Str} (hp : p (.str k) = true)
    (h : a.filter (fun e => p e.1) = b.filter (fun e => p e.1)) : getKey a k = getKey b k := by
  have key : ∀ l : List (Key × Val), getKey l k = getKey (l.filter (fun e => p e.1)) k := by
    intro l
    induction l with
    | nil => rfl
    | cons e l ih =>
      by_cases he : e.1 = .str k
      · rw [List.filter_cons, if_pos (by rw [he]; exact hp), getKey_cons, getKey_cons, if_pos he, if_pos he]
      · rw [getKey_cons, if_neg he, List.filter_cons]
        split
        · rw [getKey_cons, if_neg he, ih]
        · exact ih
  rw [key a, key b, h]

theorem filter_mem {a b : List (Key × Val)} {p : Key → Bool}
    (h : a.filter (fun e => p e.1) = b.filter (fun e => p e.1)) {e : Key × Val} (he : e ∈ a) (hp : p e.1 = true) :
    e ∈ b := by
  have : e ∈ a.filter (fun e => p e.1) := List.mem_filter.2 ⟨he, hp⟩
  rw [h] at this
  exact (List.mem_filter.1 this).1

theorem completer_cons {env : ValEnv} {ok : Str → Prop} {v : Val} (h : Doc.Completer env ok v) :
    ∃ a l, v = .list (a :: l) := by
  cases h <;> exact ⟨_, _, rfl⟩

theorem readOption_ok (env : ValEnv) (ok : Str → Prop) (o : List (Key × Val)) (h : Doc.OptionDef env ok o)
    (hn : ∀ k ∈ optionNoNull, getKey o k ≠ some .none) : ∃ x, readOption (fixOption (.dict o)) = .ok x := by
  obtain ⟨o', he, hg, hgs, hf⟩ := C30_fix_option o
  rw [he]
  have hf' : o'.filter (fun e => (fun k => decide (k ≠ Key.str (S "group") ∧ k ≠ .str (S "groups"))) e.1) =
      o.filter (fun e => (fun k => decide (k ≠ Key.str (S "group") ∧ k ≠ .str (S "groups"))) e.1) := hf
  have get : ∀ k, k ≠ S "group" → k ≠ S "groups" → getKey o' k = getKey o k := by
    intro k h1 h2
    exact getKey_congr (p := fun k => decide (k ≠ Key.str (S "group") ∧ k ≠ .str (S "groups"))) (by simp [h1, h2]) hf'
  have hnd : (Doc.optionTable.map (·.1)).Nodup := by decide
  have entry : ∀ {k : Str} {P : Val → Prop}, (k, P) ∈ Doc.optionTable → ∀ v, getKey o k = some v → P v :=
    fun hk v hv => h.entries.get hnd hk hv
  have entry' : ∀ {k : Str} {P : Val → Prop}, (k, P) ∈ Doc.optionTable → k ≠ S "group" → k ≠ S "groups" →
      ∀ v, getKey o' k = some v → P v := by
    intro k P hk h1 h2 v hv
    rw [get k h1 h2] at hv
    exact entry hk v hv
  have hkeys : validateKeys o' [S "option_strings", S "metavar", S "help", S "optional_arg", S "groups",
      S "repeatable", S "final", S "hidden", S "complete", S "nosort", S "when", S "capture",
      S "long_opt_arg_sep"] = .ok () := by
    apply validateKeys_ok
    rw [List.all_eq_true]
    intro e hem
    by_cases h1 : e.1 = .str (S "group")
    · exact absurd h1 ((getKey_none_iff _ _).1 hg e hem)
    · by_cases h2 : e.1 = .str (S "groups")
      · simp only [keyAllowed, h2]; decide
      · have hm := filter_mem (p := fun k => decide (k ≠ Key.str (S "group") ∧ k ≠ .str (S "groups"))) hf' hem (by simp [h1, h2])
        obtain ⟨row, hr, hk, _⟩ := h.entries e hm
        simp only [keyAllowed, hk]
        rw [hk] at h1
        simp only [Doc.optionTable, List.mem_cons, List.not_mem_nil, or_false] at hr
        rcases hr with rfl | rfl | rfl | rfl | rfl | rfl | rfl | rfl | rfl | rfl | rfl | rfl | rfl | rfl <;>
          first | exact absurd rfl h1 | rfl
  obtain ⟨a, l, hsk, hst⟩ := h.strings
  have hne : ∀ {k : Str}, k ≠ S "group" → k ≠ S "groups" → k ∈ optionNoNull → getKey o' k ≠ some .none := by
    intro k h1 h2 h3
    rw [get k h1 h2]
    exact hn k h3
  obtain ⟨strings, e1, p1, q1⟩ := readStrs_ok (d := o') (k := S "option_strings")
    (fun v hv => .inr (entry' (P := Doc.IsList) (by simp [Doc.optionTable]) (by decide) (by decide) v hv))
    (fun l hl v hv => by
      rw [get _ (by decide) (by decide), hsk] at hl
      cases hl
      obtain ⟨s, hs, _⟩ := hst v hv
      exact ⟨s, hs⟩)
  obtain ⟨metavar, e2, p2⟩ := readStr_ok (d := o') (k := S "metavar")
    (entry' (by simp [Doc.optionTable]) (by decide) (by decide))
  obtain ⟨help, e3, _⟩ := readStr_ok (d := o') (k := S "help")
    (entry' (by simp [Doc.optionTable]) (by decide) (by decide))
  obtain ⟨complete, e4, p4⟩ := readList_ok (d := o') (k := S "complete")
    (entry' (by simp [Doc.optionTable]) (by decide) (by decide))
  obtain ⟨groups, e5, _⟩ := readStrs_ok (d := o') (k := S "groups")
    (fun v hv => by
      rw [hgs] at hv
      unfold newGroups at hv
      split at hv
      · rename_i gs hgs'
        simp only [Option.some.injEq] at hv
        subst hv
        exact entry (by simp [Doc.optionTable]) _ hgs'
      · simp only [Option.some.injEq] at hv
        subst hv
        exact .inr ⟨_, rfl⟩
      · simp at hv)
    (fun l hl v hv => by
      rw [hgs] at hl
      unfold newGroups at hl
      split at hl
      · rename_i gs hgs'
        simp only [Option.some.injEq] at hl
        subst hl
        exact h.groupNames l hgs' v hv
      · rename_i g h1 hgg
        simp only [Option.some.injEq, Val.list.injEq] at hl
        subst hl
        simp only [List.mem_singleton] at hv
        subst hv
        rcases entry (P := Doc.OrNone Doc.Text) (by simp [Doc.optionTable]) _ hgg with rfl | ht
        · exact absurd hgg (hn _ (by decide))
        · exact ht
      · simp at hl)
  obtain ⟨optionalArg, e6, p6⟩ := readBool_ok (d := o') (k := S "optional_arg")
    (entry' (by simp [Doc.optionTable]) (by decide) (by decide)) (hne (by decide) (by decide) (by decide))
  obtain ⟨repeatable, e7, p7⟩ := readExt_ok (d := o') (k := S "repeatable")
    (entry' (by simp [Doc.optionTable]) (by decide) (by decide))
  obtain ⟨final, e8, _⟩ := readBool_ok (d := o') (k := S "final")
    (entry' (by simp [Doc.optionTable]) (by decide) (by decide)) (hne (by decide) (by decide) (by decide))
  obtain ⟨hidden, e9, p9⟩ := readBool_ok (d := o') (k := S "hidden")
    (entry' (by simp [Doc.optionTable]) (by decide) (by decide)) (hne (by decide) (by decide) (by decide))
  obtain ⟨nosort, e10, _⟩ := readBool_ok (d := o') (k := S "nosort")
    (entry' (by simp [Doc.optionTable]) (by decide) (by decide)) (hne (by decide) (by decide) (by decide))
  obtain ⟨when_, e11, _⟩ := readStr_ok (d := o') (k := S "when")
    (entry' (by simp [Doc.optionTable]) (by decide) (by decide))
  obtain ⟨capture, e12, p12⟩ := readStr_ok (d := o') (k := S "capture")
    (entry' (by simp [Doc.optionTable]) (by decide) (by decide))
  obtain ⟨longSep, e13⟩ := readSep_ok (d := o') (k := S "long_opt_arg_sep")
    (fun v hv => h.sep v (by rw [← get _ (by decide) (by decide)]; exact hv))
  unfold readOption
  simp only [asDict, bind, Except.bind, hkeys, e1, e2, e3, e4, e5, e6, e7, e8, e9, e10, e11, e12, e13]
  unfold Opt.init
  rw [if_pos]
  · exact ⟨_, rfl⟩
  -- the checks of the constructor
  have hcomp : Doc.Given o (S "complete") → truthyList complete = true := by
    rintro ⟨v, hv, hvn⟩
    obtain ⟨x, xs, rfl⟩ := completer_cons (h.common.complete v hv hvn)
    rw [(p4 (x :: xs)).2 (by rw [get _ (by decide) (by decide)]; exact hv)]
    rfl
  have hstr : strings = some ((strings.getD [])) ∧ strings.getD [] ≠ [] ∧ ∀ s ∈ strings.getD [], isValidOptionString s = true := by
    cases strings with
    | none => exact absurd (by rw [get _ (by decide) (by decide)]; exact hsk) (q1 rfl _)
    | some ss =>
      have := p1 ss rfl
      rw [get _ (by decide) (by decide), hsk] at this
      simp only [Option.some.injEq, Val.list.injEq] at this
      refine ⟨rfl, fun h0 => ?_, fun s hs => ?_⟩
      · simp only [Option.getD_some] at h0
        simp [h0] at this
      · obtain ⟨s', h1, h2⟩ := hst (.str s) (by rw [this]; exact List.mem_map.2 ⟨s, hs, rfl⟩)
        cases h1
        exact h2
  simp only [Opt.check, Bool.and_eq_true]
  refine ⟨⟨⟨⟨⟨?_, ?_⟩, ?_⟩, ?_⟩, ?_⟩, ?_⟩
  · simpa using hstr.2.1
  · exact List.all_eq_true.2 hstr.2.2
  · cases hc : capture with
    | none => rfl
    | some c =>
      have := p12 c hc
      rw [get _ (by decide) (by decide)] at this
      obtain ⟨s, hs, hval⟩ := h.common.capture _ this (by simp)
      cases hs
      exact hval
  · cases hm : metavar with
    | none => simp
    | some m =>
      have := p2 m hm
      rw [get _ (by decide) (by decide)] at this
      rw [hcomp (h.metavar ⟨_, this, by simp⟩)]
      simp
  · cases ho : optionalArg with
    | false => simp
    | true =>
      have := p6 ho
      rw [Doc.On, get _ (by decide) (by decide)] at this
      rw [hcomp (h.optionalArg this)]
      rfl
  · cases hh : hidden with
    | false => simp
    | true =>
      have h9 := p9 hh
      rw [Doc.On, get _ (by decide) (by decide)] at h9
      by_cases hr : repeatable = .val true
      · have h7 := p7 hr
        rw [Doc.On, get _ (by decide) (by decide)] at h7
        exact absurd ⟨h7, h9⟩ h.hidden
      · simp [hr]

theorem readPositional_ok (env : ValEnv) (ok : Str → Prop) (o : List (Key × Val)) (h : Doc.PositionalDef env ok o)
    (hn : ∀ k ∈ positionalNoNull, getKey o k ≠ some .none) : ∃ x, readPositional (.dict o) = .ok x := by
  have hnd : (Doc.positionalTable.map (·.1)).Nodup := by decide
  have entry : ∀ {k : Str} {P : Val → Prop}, (k, P) ∈ Doc.positionalTable → ∀ v, getKey o k = some v → P v :=
    fun hk v hv => h.entries.get hnd hk hv
  have hkeys : validateKeys o [S "number", S "metavar", S "help", S "repeatable", S "complete", S "nosort",
      S "when", S "capture"] = .ok () :=
    validateKeys_table h.entries (fun e he k hk hm => by
      simp only [Doc.positionalTable, List.map_cons, List.map_nil, List.mem_cons, List.not_mem_nil, or_false] at hm ⊢
      rcases hm with rfl | rfl | rfl | rfl | rfl | rfl | rfl | rfl <;> simp)
  obtain ⟨v, i, hv, hi, h1⟩ := h.number
  obtain ⟨number, e1, p1⟩ := readNumber_ok hv hi h1
  obtain ⟨metavar, e2, _⟩ := readStr_ok (d := o) (k := S "metavar") (entry (by simp [Doc.positionalTable]))
  obtain ⟨help, e3, _⟩ := readStr_ok (d := o) (k := S "help") (entry (by simp [Doc.positionalTable]))
  obtain ⟨complete, e4, _⟩ := readList_ok (d := o) (k := S "complete") (entry (by simp [Doc.positionalTable]))
  obtain ⟨repeatable, e5, _⟩ := readBool_ok (d := o) (k := S "repeatable") (entry (by simp [Doc.positionalTable]))
    (hn _ (by decide))
  obtain ⟨nosort, e6, _⟩ := readBool_ok (d := o) (k := S "nosort") (entry (by simp [Doc.positionalTable]))
    (hn _ (by decide))
  obtain ⟨when_, e7, _⟩ := readStr_ok (d := o) (k := S "when") (entry (by simp [Doc.positionalTable]))
  obtain ⟨capture, e8, p8⟩ := readStr_ok (d := o) (k := S "capture") (entry (by simp [Doc.positionalTable]))
  unfold readPositional
  simp only [asDict, bind, Except.bind, hkeys, e1, e2, e3, e4, e5, e6, e7, e8]
  unfold Pos.init
  rw [if_pos]
  · exact ⟨_, rfl⟩
  simp only [Bool.and_eq_true, decide_eq_true_eq]
  refine ⟨?_, p1⟩
  cases hc : capture with
  | none => rfl
  | some c =>
    obtain ⟨s, hs, hval⟩ := h.common.capture _ (p8 c hc) (by simp)
    cases hs
    exact hval

theorem readAll_ok {α} (f : Val → Except Err α) (l : List Val) (h : ∀ v ∈ l, ∃ x, f v = .ok x) :
    ∃ xs, readAll f l = .ok xs := by
  induction l with
  | nil => exact ⟨[], rfl⟩
  | cons v l ih =>
    obtain ⟨x, hx⟩ := h v (by simp)
    obtain ⟨xs, hxs⟩ := ih (fun y hy => h y (by simp [hy]))
    exact ⟨x :: xs, by simp [readAll, hx, hxs, bind, Except.bind]⟩

theorem readItems_ok {d : List (Key × Val)} {k : Str} (h : ∀ v, getKey d k = some v → Doc.OrNone Doc.IsList v)
    (hn : getKey d k ≠ some .none) :
    ∃ l, readItems d k = .ok l ∧ (l = [] ∨ getKey d k = some (.list l)) := by
  unfold readItems
  cases hg : getKey d k with
  | none => exact ⟨[], rfl, .inl rfl⟩
  | some v =>
    rcases h v hg with rfl | ⟨l, rfl⟩
    · exact absurd hg hn
    · exact ⟨l, rfl, .inr rfl⟩

theorem dictToCmd_ok (env : ValEnv) (ok : Str → Prop) (d : List (Key × Val)) (h : Doc.Definition env ok d)
    (hn : NoNulls d) : ∃ d', fixCommandline (.dict d) = .dict d' ∧ getKey d' (S "prog") = getKey d (S "prog") ∧
      ∀ name, ∃ x, dictToCmd d' name = .ok x := by
  obtain ⟨d', he, ho, hsame, hf⟩ := C30_fix_commandline d
  have hf' : d'.filter (fun e => (fun k => decide (k ≠ Key.str (S "options"))) e.1) =
      d.filter (fun e => (fun k => decide (k ≠ Key.str (S "options"))) e.1) := hf
  have get : ∀ k, k ≠ S "options" → getKey d' k = getKey d k := fun k h1 =>
    getKey_congr (p := fun k => decide (k ≠ Key.str (S "options"))) (by simp [h1]) hf'
  refine ⟨d', he, get _ (by decide), fun name => ?_⟩
  have hnd : (Doc.definitionTable.map (·.1)).Nodup := by decide
  have entry : ∀ {k : Str} {P : Val → Prop}, (k, P) ∈ Doc.definitionTable → ∀ v, getKey d k = some v → P v :=
    fun hk v hv => h.entries.get hnd hk hv
  have entry' : ∀ {k : Str} {P : Val → Prop}, (k, P) ∈ Doc.definitionTable → k ≠ S "options" →
      ∀ v, getKey d' k = some v → P v := by
    intro k P hk h1 v hv
    rw [get k h1] at hv
    exact entry hk v hv
  have hkeys : validateKeys d' [S "prog", S "help", S "aliases", S "wraps", S "abbreviate_commands",
      S "abbreviate_options", S "inherit_options", S "options", S "positionals"] = .ok () := by
    apply validateKeys_ok
    rw [List.all_eq_true]
    intro e hem
    by_cases h1 : e.1 = .str (S "options")
    · simp only [keyAllowed, h1]; decide
    · have hm := filter_mem (p := fun k => decide (k ≠ Key.str (S "options"))) hf' hem (by simp [h1])
      obtain ⟨row, hr, hk, _⟩ := h.entries e hm
      simp only [keyAllowed, hk]
      simp only [Doc.definitionTable, List.mem_cons, List.not_mem_nil, or_false] at hr
      rcases hr with rfl | rfl | rfl | rfl | rfl | rfl | rfl | rfl | rfl <;> rfl
  have hos : ∃ l, readItems d' (S "options") = .ok l ∧ ∀ v ∈ l, ∃ x, readOption v = .ok x := by
    cases hg : getKey d (S "options") with
    | none =>
      have : d' = d := hsame (fun os h => by rw [hg] at h; simp at h)
      refine ⟨[], ?_, by simp⟩
      rw [this, readItems, hg]
    | some v =>
      rcases entry (P := Doc.OrNone Doc.IsList) (by simp [Doc.definitionTable]) _ hg with rfl | ⟨l, rfl⟩
      · exact absurd hg (hn.definition _ (by decide))
      · refine ⟨l.map fixOption, by rw [readItems, ho l hg], fun v hv => ?_⟩
        obtain ⟨w, hw, rfl⟩ := List.mem_map.1 hv
        obtain ⟨o, rfl, hod⟩ := h.options l hg w hw
        exact readOption_ok env _ o hod (hn.options l o hg hw)
  obtain ⟨os, e1, p1⟩ := hos
  obtain ⟨options, e9⟩ := readAll_ok readOption os p1
  obtain ⟨ps, e2, p2⟩ := readItems_ok (d := d') (k := S "positionals")
    (entry' (by simp [Doc.definitionTable]) (by decide)) (by rw [get _ (by decide)]; exact hn.definition _ (by decide))
  obtain ⟨positionals, e10⟩ := readAll_ok readPositional ps (fun v hv => by
    rcases p2 with rfl | p2
    · simp at hv
    · rw [get _ (by decide)] at p2
      obtain ⟨p, rfl, hpd⟩ := h.positionals ps p2 v hv
      exact readPositional_ok env _ p hpd (hn.positionals ps p p2 hv))
  obtain ⟨help, e3, _⟩ := readStr_ok (d := d') (k := S "help") (entry' (by simp [Doc.definitionTable]) (by decide))
  obtain ⟨aliases, e4, p4, _⟩ := readStrs_ok (d := d') (k := S "aliases")
    (entry' (by simp [Doc.definitionTable]) (by decide))
    (fun l hl v hv => by
      rw [get _ (by decide)] at hl
      obtain ⟨⟨s, hs, _⟩, _⟩ := h.aliases l hl v hv
      exact ⟨s, hs⟩)
  obtain ⟨wraps, e5, p5⟩ := readStr_ok (d := d') (k := S "wraps") (entry' (by simp [Doc.definitionTable]) (by decide))
  obtain ⟨ac, e6, _⟩ := readExt_ok (d := d') (k := S "abbreviate_commands")
    (entry' (by simp [Doc.definitionTable]) (by decide))
  obtain ⟨ao, e7, _⟩ := readExt_ok (d := d') (k := S "abbreviate_options")
    (entry' (by simp [Doc.definitionTable]) (by decide))
  obtain ⟨io, e8, _⟩ := readExt_ok (d := d') (k := S "inherit_options")
    (entry' (by simp [Doc.definitionTable]) (by decide))
  unfold dictToCmd
  simp only [bind, Except.bind, hkeys, e1, e2, e3, e4, e5, e6, e7, e8, e9, e10]
  rw [if_pos]
  · exact ⟨_, rfl⟩
  simp only [CmdData.check, Bool.and_eq_true]
  constructor
  · cases hw : wraps with
    | none => rfl
    | some w =>
      have := p5 w hw
      rw [get _ (by decide)] at this
      obtain ⟨⟨s, hs, c, hc, hcs⟩, ⟨s', hs', n1, n2, n3⟩, _⟩ := h.wraps _ this (by simp)
      cases hs
      cases hs'
      simp only [containsSpace, Bool.and_eq_true, Bool.not_eq_true', List.isEmpty_eq_false_iff]
      refine ⟨fun h0 => ?_, by simp [n1, n2, n3]⟩
      rcases mem_strip _ c hc with h1 | h1
      · rw [hcs] at h1; exact absurd h1 (by decide)
      · rw [h0] at h1; simp at h1
  · cases ha : aliases with
    | none => rfl
    | some ss =>
      have := p4 ss ha
      rw [get _ (by decide)] at this
      rw [List.all_eq_true]
      intro s hs
      obtain ⟨_, s', hs', n1, n2, n3⟩ := h.aliases _ this (.str s) (List.mem_map.2 ⟨s, hs, rfl⟩)
      cases hs'
      simp [containsSpace, n1, n2, n3]

/-! ## Names -/

theorem splitOn_words (s : Str) (hd : hasDoubleSpace s = false) (hl : s.getLast? ≠ some ' ') (hne : s ≠ []) :
    (∀ w ∈ (splitOn ' ' s).tail, w ≠ []) ∧ (s.head? ≠ some ' ' → ∀ w ∈ splitOn ' ' s, w ≠ []) := by
  induction s with
  | nil => exact absurd rfl hne
  | cons x xs ih =>
    cases xs with
    | nil =>
      have hx : x ≠ ' ' := by intro h; exact hl (by simp [h])
      simp [splitOn, hx]
    | cons y ys =>
      have hd2 : hasDoubleSpace (y :: ys) = false := by
        simp only [hasDoubleSpace, Bool.or_eq_false_iff] at hd
        exact hd.2
      have hl2 : (y :: ys).getLast? ≠ some ' ' := by simpa [List.getLast?_cons] using hl
      obtain ⟨ih1, ih2⟩ := ih hd2 hl2 (by simp)
      by_cases hx : x = ' '
      · have hy : y ≠ ' ' := by
          intro hy
          simp [hasDoubleSpace, hx, hy] at hd
        have := ih2 (by simpa using hy)
        rw [splitOn, if_pos hx]
        exact ⟨by simpa using this, fun h => absurd (by simp [hx]) h⟩
      · rw [splitOn, if_neg hx]
        cases hs : splitOn ' ' (y :: ys) with
        | nil => exact absurd hs (splitOn_ne_nil _ _)
        | cons w ws =>
          rw [hs] at ih1
          refine ⟨by simpa using ih1, fun _ v hv => ?_⟩
          rcases List.mem_cons.1 hv with rfl | hv
          · simp
          · exact ih1 v (by simpa using hv)

theorem mem_splitOn (c : Char) (s : Str) (w : Str) (hw : w ∈ splitOn c s) : ∀ x ∈ w, x ∈ s := by
  induction s generalizing w with
  | nil => simp [splitOn] at hw; simp [hw]
  | cons y ys ih =>
    rw [splitOn] at hw
    split at hw
    · rcases List.mem_cons.1 hw with rfl | hw
      · simp
      · exact fun x hx => by simp [ih w hw x hx]
    · split at hw
      · simp at hw; simp [hw]
      · rename_i v vs hv
        rcases List.mem_cons.1 hw with rfl | hw
        · intro x hx
          rcases List.mem_cons.1 hx with rfl | hx
          · simp
          · simp [ih v (by rw [hv]; simp) x hx]
        · exact fun x hx => by simp [ih w (by rw [hv]; simp [hw]) x hx]

theorem prog_words (s : Str) (hv : validProg s = true) (hp : ∀ c ∈ s, pyIsSpace c = true → c = ' ') :
    splitWs s = splitOn ' ' s := by
  simp only [validProg, Bool.and_eq_true, Bool.not_eq_true', bne_iff_ne] at hv
  obtain ⟨⟨⟨⟨⟨h1, h2⟩, h3⟩, _⟩, _⟩, h6⟩ := hv
  have hne : s ≠ [] := by rintro rfl; simp [isBlank] at h1
  have hw : ∀ w ∈ splitOn ' ' s, IsWord w := fun w hw =>
    ⟨(splitOn_words s h6 h3 hne).2 h2 w hw, fun c hc => by
      cases hcs : pyIsSpace c with
      | false => rfl
      | true =>
        have := hp c (mem_splitOn _ _ _ hw c hc) hcs
        subst this
        exact absurd hc (splitOn_no_sep ' ' s w hw)⟩
  have := splitWs_join (splitOn ' ' s) hw
  rwa [join_splitOn] at this

/-! ## The property -/

theorem parsed_of {vs : List Val} {qs : List (List Str × List (Key × Val))} (h : HaveDefs vs qs) (env : ValEnv)
    (hdef : ∀ p d, (p, d) ∈ qs → Doc.Definition env (fun _ => True) d) (hn : ∀ d, .dict d ∈ vs → NoNulls d ∧ BlanksOnly d) :
    ∃ items, ParsedAll (vs.map fixCommandline) items ∧ items.map (·.1) = qs.map (·.1) := by
  induction h with
  | nil => exact ⟨[], .nil, rfl⟩
  | cons d s vs ps hk hv _ ih =>
    obtain ⟨items, h1, h2⟩ := ih (fun p d hm => hdef p d (by simp [hm])) (fun d hd => hn d (by simp [hd]))
    obtain ⟨nn, pn⟩ := hn d (by simp)
    obtain ⟨d', he, hprog, hx⟩ := dictToCmd_ok env _ d (hdef _ d List.mem_cons_self) nn
    obtain ⟨x, hx⟩ := hx ((splitOn ' ' s).getLastD [])
    refine ⟨(splitOn ' ' s, x) :: items, ?_, by simp [h2]⟩
    rw [List.map_cons, he]
    refine .cons (e := d') ?_ hx h1
    simp only [checkProg, hprog, hk, hv, if_true]
    rw [prog_words s hv (pn s hk)]

/-- C61: what the validator accepts can be imported, if no attribute is null that must not be, the only white
space in names are blanks, and there are only direct subcommands. Missing: each of these conditions, see
`C61_null`, `C61_name` and `C61_deep`. -/
theorem C61_loads_partial (env : ValEnv) (docs : List Val)
    (h : validate env (replaceDefinesInDocuments docs) = .ok ())
    (hn : ∀ d, .dict d ∈ replaceDefinesInDocuments docs → NoNulls d ∧ BlanksOnly d)
    (hdeep : ∀ v ∈ replaceDefinesInDocuments docs, ∀ path, Doc.HasPath v path → path.length ≤ 2) :
    ∃ c, dictsToCmd docs = .ok c := by
  obtain ⟨qs, hd, ho, hone, hall⟩ := (validate_iff env _).1 h
  have hdef : ∀ p d, (p, d) ∈ qs → Doc.Definition env (fun _ => True) d := by
    intro p d hm
    obtain ⟨h1, h2⟩ := haveDefs_hasPath hd hm
    exact definition_sound env d (hall p d hm (hdeep _ h1 p h2)).1
  obtain ⟨items, hp, hm⟩ := parsed_of hd env hdef hn
  rw [C27_accepted_iff]
  have hm' : items.map Prod.fst = qs.map (·.1) := hm
  have hord := (orderedAfter_iff [] _).1 ho
  simp only [List.nil_append] at hord
  refine ⟨items, hp, ?_, ?_, ?_⟩
  · rw [hm']
    exact (orderedAfter_nodup _ _ ho).1
  · intro i p d hi h2
    have hpi : (qs.map (·.1))[i]? = some p := by rw [← hm', List.getElem?_map, hi]; rfl
    obtain ⟨hlt, hget⟩ := List.getElem?_eq_some_iff.1 hpi
    have hsplit : qs.map (·.1) = (qs.map (·.1)).take i ++ p :: (qs.map (·.1)).drop (i + 1) := by
      rw [← hget, List.getElem_cons_drop, List.take_append_drop]
    obtain ⟨_, hpar⟩ := hord _ _ _ hsplit
    have hmem := hpar (by omega)
    obtain ⟨j, hj, hje⟩ := List.getElem_of_mem hmem
    have hj' : j < i := by
      have := hj
      rw [List.length_take] at this
      omega
    rw [List.getElem_take] at hje
    have hjt : (items.map Prod.fst)[j]? = some p.dropLast := by
      rw [hm', List.getElem?_eq_some_iff]
      exact ⟨by omega, hje⟩
    rw [List.getElem?_map] at hjt
    cases hij : items[j]? with
    | none => simp [hij] at hjt
    | some it =>
      simp only [hij, Option.map_some, Option.some.injEq] at hjt
      exact ⟨j, it.2, hj', by rw [hij, ← hjt]⟩
  · obtain ⟨r, hr, hall⟩ := hone
    refine ⟨r, fun p => ?_⟩
    rw [hm']
    constructor
    · rintro ⟨h1, h2⟩
      have := hall p h1
      match p, h2, this with
      | [a], _, h => simp at h; rw [h]
    · rintro rfl
      exact ⟨hr, rfl⟩

/-- The hypotheses are met by the sample. -/
example : validate sampleEnv (replaceDefinesInDocuments sampleDefs) = .ok () ∧
    (∀ v ∈ replaceDefinesInDocuments sampleDefs, ∀ path, Doc.HasPath v path → path.length ≤ 2) ∧
    ∀ d, .dict d ∈ replaceDefinesInDocuments sampleDefs → NoNulls d ∧ BlanksOnly d := by
  have he : replaceDefinesInDocuments sampleDefs = sampleDefs := by decide +kernel
  rw [he]
  refine ⟨(errorOf_none (by decide +kernel)).choose_spec, ?_, ?_⟩
  · rintro v hv path ⟨d, s, rfl, hs, _, rfl⟩
    simp only [sampleDefs, List.mem_cons, List.not_mem_nil, or_false, dictOf, Val.dict.injEq] at hv
    rcases hv with rfl | rfl <;> simp [getKey] at hs <;> subst hs <;> decide
  · intro d hd
    simp only [sampleDefs, List.mem_cons, List.not_mem_nil, or_false, dictOf, Val.dict.injEq] at hd
    rcases hd with rfl | rfl
    · refine ⟨⟨by decide +kernel, ?_, ?_⟩, ?_⟩
      · intro l o hl ho
        simp [getKey, S] at hl
        subst hl
        simp only [List.mem_singleton, Val.dict.injEq] at ho
        subst ho
        decide +kernel
      · intro l o hl
        simp [getKey, S] at hl
      · intro s hs
        simp [getKey, S] at hs
        subst hs
        decide +kernel
    · refine ⟨⟨by decide +kernel, ?_, ?_⟩, ?_⟩
      · intro l o hl
        simp [getKey, S] at hl
      · intro l o hl ho
        simp [getKey, S] at hl
        subst hl
        simp only [List.mem_cons, List.not_mem_nil, or_false, Val.dict.injEq] at ho
        rcases ho with rfl | rfl <;> decide +kernel
      · intro s hs
        simp [getKey, S] at hs
        subst hs
        decide +kernel

/-- An accepted document with a null that the import rejects. -/
theorem C61_null : ∃ docs, validate sampleEnv docs = .ok () ∧ dictsToCmd docs = .error .crazyError :=
  ⟨[dictOf [("prog", .str (S "a")), ("options", .none)]], (errorOf_none (by decide +kernel)).choose_spec,
    errorOf_eq (by decide +kernel)⟩

/-- A name with a no-break space is one word for the validator and two for the import. -/
theorem C61_name : ∃ docs, validate sampleEnv docs = .ok () ∧ dictsToCmd docs = .error .crazyError :=
  ⟨[.dict [(.str (S "prog"), .str ['a', Char.ofNat 0xa0, 'b'])]], (errorOf_none (by decide +kernel)).choose_spec,
    errorOf_eq (by decide +kernel)⟩

/-- A definition that is not checked, because it is below a direct subcommand. -/
theorem C61_deep : ∃ docs, validate sampleEnv docs = .ok () ∧ dictsToCmd docs = .error .crazyError :=
  ⟨[dictOf [("prog", .str (S "a"))], dictOf [("prog", .str (S "a b"))],
    dictOf [("prog", .str (S "a b c")), ("unknown", .int 1)]], (errorOf_none (by decide +kernel)).choose_spec,
    errorOf_eq (by decide +kernel)⟩

end CC
