import Verif.Lemmas.ZshWrapper
import Verif.Props.CliOptions
/-!
# Which words the wrapper function of Zsh deletes
-/

namespace CC
namespace ZshWrap

/-! ## The lists of options -/

theorem kind_required {o : Opt} : o.kind = .required ↔ o.hasRequiredArg = true := by
  unfold Opt.kind; split <;> rename_i h
  · simp [h]
  · split <;> simp [h]

theorem kind_optional {o : Opt} : o.kind = .optional ↔ o.hasOptionalArg = true := by
  unfold Opt.kind; split <;> rename_i h
  · simp only [reduceCtorEq, false_iff]
    simp only [Opt.hasRequiredArg, Opt.hasOptionalArg, Bool.and_eq_true, Bool.not_eq_true'] at h ⊢
    simp [h]
  · split <;> rename_i h2 <;> simp [h2]

/-- The long and old-style strings of the options of a kind. -/
def NamesOf (os : List Opt) (k : ArgKind) (s : Str) : Prop :=
  ∃ o ∈ os, o.kind = k ∧ s ∈ o.strings ∧ (isLongOptionString s = true ∨ isOldOptionString s = true)

/-- The short strings of the options of a kind. -/
def ShortsOf (os : List Opt) (k : ArgKind) (s : Str) : Prop :=
  ∃ o ∈ os, o.kind = k ∧ s ∈ o.strings ∧ isShortOptionString s = true

def WrapOpts.names (w : WrapOpts) : ArgKind → List Str
  | .required => w.longArg
  | .optional => w.longOptional
  | .flag => w.longFlag

def WrapOpts.shorts (w : WrapOpts) : ArgKind → List Str
  | .required => w.shortArg
  | .optional => w.shortOptional
  | .flag => w.shortFlag

theorem add_lists (w : WrapOpts) (o : Opt) (k : ArgKind) :
    WrapOpts.names (w.add o) k = WrapOpts.names w k ++ (if o.kind = k then o.longStrings ++ o.oldStrings else []) ∧
    WrapOpts.shorts (w.add o) k = WrapOpts.shorts w k ++ (if o.kind = k then o.shortStrings else []) := by
  unfold WrapOpts.add Opt.kind
  cases h1 : o.hasRequiredArg <;> cases h2 : o.hasOptionalArg <;> cases k <;> simp [WrapOpts.names, WrapOpts.shorts]

theorem fold_lists (k : ArgKind) : ∀ (os : List Opt) (w : WrapOpts),
    (∀ s, s ∈ WrapOpts.names (os.foldl WrapOpts.add w) k ↔ s ∈ WrapOpts.names w k ∨ NamesOf os k s) ∧
    (∀ s, s ∈ WrapOpts.shorts (os.foldl WrapOpts.add w) k ↔ s ∈ WrapOpts.shorts w k ∨ ShortsOf os k s)
  | [], w => by simp [NamesOf, ShortsOf]
  | o :: os, w => by
    obtain ⟨h1, h2⟩ := fold_lists k os (w.add o)
    obtain ⟨a1, a2⟩ := add_lists w o k
    simp only [List.foldl_cons, h1, h2, a1, a2]
    refine ⟨fun s => ?_, fun s => ?_⟩
    · by_cases hk : o.kind = k
      · have e : s ∈ o.longStrings ++ o.oldStrings ↔ s ∈ o.strings ∧ (isLongOptionString s = true ∨ isOldOptionString s = true) := by
          simp [Opt.longStrings, Opt.oldStrings, and_or_left]
        have e2 : NamesOf (o :: os) k s ↔ (s ∈ o.strings ∧ (isLongOptionString s = true ∨ isOldOptionString s = true)) ∨ NamesOf os k s := by
          simp [NamesOf, hk]
        rw [if_pos hk, List.mem_append, e, e2, or_assoc]
      · simp [NamesOf, hk]
    · by_cases hk : o.kind = k
      · simp [ShortsOf, hk, Opt.shortStrings, or_assoc]
      · simp [ShortsOf, hk]

/-- The options collected for the wrapper are those of the command. -/
theorem own_options (c : Cmd) (o : Opt) : o ∈ getOptions [] c false false ↔ o ∈ c.data.options := by
  rw [C16_mem c [] c .root false false o]
  simp only [searched, Bool.false_eq_true, if_false]
  constructor
  · rintro ⟨pre, x, post, h1, h2, -⟩
    have : pre = [] ∧ x = c := by
      cases pre with
      | nil => simp at h1; exact ⟨rfl, h1.1.symm⟩
      | cons y r => simp at h1
    rw [this.2] at h2
    simpa [eligible] using h2
  · intro h
    exact ⟨[], c, [], rfl, by simpa [eligible] using h, by simp⟩

variable {c : Cmd} (hw : Writable c.data.options)

include hw in
theorem names_iff (k : ArgKind) (s : Str) : s ∈ WrapOpts.names (wrapOpts c) k ↔ ∃ o, Named c.data.options s o ∧ o.kind = k := by
  rw [wrapOpts, (fold_lists k _ {}).1 s]
  have : s ∉ WrapOpts.names {} k := by cases k <;> simp [WrapOpts.names]
  simp only [this, false_or, NamesOf, own_options]
  constructor
  · rintro ⟨o, ho, hk, hs, hkind⟩
    refine ⟨o, ⟨ho, hs, ?_⟩, hk⟩
    rcases hw.shape o ho s hs with ⟨d, rfl, hd⟩ | ⟨n, rfl, hn, -⟩ | ⟨n, rfl, hn, -⟩
    · have : d ≠ '-' := by intro e; subst e; exact hd (by decide)
      rcases hkind with h | h
      · have h2 : '-' ≠ d := fun e => this e.symm
        simp [isLongOptionString, startsWith, this, h2] at h
      · simp [isOldOptionString] at h
    · simp; omega
    · cases n with
      | nil => exact absurd rfl hn
      | cons _ _ => simp
  · rintro ⟨o, ⟨ho, hs, hl⟩, hk⟩
    refine ⟨o, ho, hk, hs, ?_⟩
    cases h : isLongOptionString s with
    | true => exact Or.inl rfl
    | false => exact Or.inr (by simp only [isLongOptionString] at h; simp [isOldOptionString, h, hl])

include hw in
theorem shorts_iff (k : ArgKind) (s : Str) : s ∈ WrapOpts.shorts (wrapOpts c) k ↔ ∃ o d, s = ['-', d] ∧ Letter c.data.options d o ∧ o.kind = k := by
  rw [wrapOpts, (fold_lists k _ {}).2 s]
  have : s ∉ WrapOpts.shorts {} k := by cases k <;> simp [WrapOpts.shorts]
  simp only [this, false_or, ShortsOf, own_options]
  constructor
  · rintro ⟨o, ho, hk, hs, hkind⟩
    rcases hw.shape o ho s hs with ⟨d, rfl, hd⟩ | ⟨n, rfl, hn, -⟩ | ⟨n, rfl, hn, -⟩
    · exact ⟨o, d, rfl, ⟨ho, hs⟩, hk⟩
    · simp [isShortOptionString] at hkind; omega
    · simp [isShortOptionString] at hkind; exact absurd hkind hn
  · rintro ⟨o, d, rfl, ⟨ho, hs⟩, hk⟩
    exact ⟨o, ho, hk, hs, rfl⟩

include hw in
theorem letters_iff (k : ArgKind) (d : Char) : d ∈ letters (WrapOpts.shorts (wrapOpts c) k) ↔ ∃ o, Letter c.data.options d o ∧ o.kind = k := by
  simp only [letters, List.mem_map]
  constructor
  · rintro ⟨s, hs, rfl⟩
    obtain ⟨o, d, rfl, h⟩ := (shorts_iff hw k s).mp hs
    exact ⟨o, h⟩
  · rintro ⟨o, h⟩
    exact ⟨['-', d], (shorts_iff hw k _).mpr ⟨o, d, rfl, h⟩, rfl⟩

include hw in
theorem names_fine (k : ArgKind) : ∀ s ∈ WrapOpts.names (wrapOpts c) k, Fine s := by
  intro s hs
  obtain ⟨o, ⟨ho, hm, hl⟩, -⟩ := (names_iff hw k s).mp hs
  rcases hw.shape o ho s hm with ⟨d, rfl, hd⟩ | h | h
  · simp at hl
  · exact Or.inl h
  · exact Or.inr h

include hw in
theorem letter_brackets {d : Char} {o : Opt} (h : Letter c.data.options d o) : InBrackets d := by
  rcases hw.shape o h.1 _ h.2 with ⟨e, he, hd⟩ | ⟨n, he, hn, -⟩ | ⟨n, he, hn, -⟩
  · simp at he; subst he; exact hd
  · simp at he; subst he; simp at hn
  · simp at he; exact absurd he.2 hn

include hw in
theorem letters_brackets (k : ArgKind) : ∀ d ∈ letters (WrapOpts.shorts (wrapOpts c) k), InBrackets d := by
  intro d hd
  obtain ⟨o, h, -⟩ := (letters_iff hw k d).mp hd
  exact letter_brackets hw h

/-! ## The chain of tests -/

variable {holds : WrapTest → Str → Bool} (hh : ∀ t w, holds t w = true ↔ Holds t w)

/-- A part of the chain decides what is said by `P`. -/
def Decides (holds : WrapTest → Str → Bool) (bs : List WrapBranch) (w : Str) (P : Nat → Prop) : Prop :=
  (∀ b, wrapHit holds bs w = some b → P (if b then 2 else 1)) ∧ (wrapHit holds bs w = none → ∀ n, ¬ P n)

theorem hit_append (as bs : List WrapBranch) (w : Str) :
    wrapHit holds (as ++ bs) w = (wrapHit holds as w).or (wrapHit holds bs w) := by
  simp only [wrapHit, List.find?_append]
  cases as.find? (fun b => holds b.test w) <;> simp

theorem decides_or {as bs : List WrapBranch} {w : Str} {P Q : Nat → Prop} (h1 : Decides holds as w P) (h2 : Decides holds bs w Q) :
    Decides holds (as ++ bs) w (fun n => P n ∨ Q n) := by
  refine ⟨fun b h => ?_, fun h => ?_⟩
  · rw [hit_append] at h
    cases ha : wrapHit holds as w with
    | some b' => rw [ha] at h; simp at h; subst h; exact Or.inl (h1.1 _ ha)
    | none => rw [ha] at h; simp at h; exact Or.inr (h2.1 _ h)
  · rw [hit_append] at h
    simp at h
    intro n hn
    rcases hn with hn | hn
    · exact h1.2 h.1 n hn
    · exact h2.2 h.2 n hn

theorem decides_then {as bs : List WrapBranch} {w : Str} {P Q : Nat → Prop} (h1 : Decides holds as w P) (h2 : Decides holds bs w Q) :
    Decides holds (as ++ bs) w (fun n => P n ∨ ((∀ m, ¬ P m) ∧ Q n)) := by
  refine ⟨fun b h => ?_, fun h => ?_⟩
  · rw [hit_append] at h
    cases ha : wrapHit holds as w with
    | some b' => rw [ha] at h; simp at h; subst h; exact Or.inl (h1.1 _ ha)
    | none => rw [ha] at h; simp at h; exact Or.inr ⟨h1.2 ha, h2.1 _ h⟩
  · rw [hit_append] at h
    simp at h
    intro n hn
    rcases hn with hn | hn
    · exact h1.2 h.1 n hn
    · exact h2.2 h.2 n hn.2

theorem decides_congr {bs : List WrapBranch} {w : Str} {P Q : Nat → Prop} (h : Decides holds bs w P) (he : ∀ n, P n ↔ Q n) :
    Decides holds bs w Q := ⟨fun b hb => (he _).mp (h.1 b hb), fun hn n hq => h.2 hn n ((he n).mpr hq)⟩

include hh in
theorem decides_single (t : WrapTest) (b : Bool) (w : Str) :
    Decides holds [⟨t, b⟩] w (fun n => n = (if b then 2 else 1) ∧ Holds t w) := by
  refine ⟨fun b' h => ?_, fun h n hn => ?_⟩
  · cases ht : holds t w with
    | true => simp [wrapHit, ht] at h; subst h; exact ⟨rfl, (hh t w).mp ht⟩
    | false => simp [wrapHit, ht] at h
  · have := (hh t w).mpr hn.2
    simp [wrapHit, this] at h

theorem decides_nil (w : Str) (P : Nat → Prop) (h : ∀ n, ¬ P n) : Decides holds [] w P :=
  ⟨fun b h => by simp [wrapHit] at h, fun _ => h⟩

/-- The words that end in a value behind `=`. -/
def ValueOf (os : List Opt) (k : ArgKind) (w : Str) : Prop := ∃ s o v, Named os s o ∧ o.kind = k ∧ w = s ++ '=' :: v

/-- The words that are an option. -/
def Whole (os : List Opt) (k : ArgKind) (w : Str) : Prop := ∃ o, Named os w o ∧ o.kind = k

/-- The words with a short option of the kind behind flags. -/
def Short (os : List Opt) (k : ArgKind) (t : WrapArg) (w : Str) : Prop :=
  ∃ cs d v o, w = '-' :: (cs ++ d :: v) ∧ Flags os cs ∧ Letter os d o ∧ o.kind = k ∧ Behind t v

include hw in
theorem whole_names (k : ArgKind) (w : Str) : w ∈ WrapOpts.names (wrapOpts c) k ↔ Whole c.data.options k w := names_iff hw k w

include hw in
theorem value_names (k : ArgKind) (w : Str) :
    (∃ s ∈ WrapOpts.names (wrapOpts c) k, ∃ v, w = s ++ '=' :: v) ↔ ValueOf c.data.options k w := by
  constructor
  · rintro ⟨s, hs, v, rfl⟩
    obtain ⟨o, h1, h2⟩ := (names_iff hw k s).mp hs
    exact ⟨s, o, v, h1, h2, rfl⟩
  · rintro ⟨s, o, v, h1, h2, rfl⟩
    exact ⟨s, (names_iff hw k s).mpr ⟨o, h1, h2⟩, v, rfl⟩

include hw in
theorem short_letters (k : ArgKind) (t : WrapArg) (w : Str) :
    (∃ cs d v, w = '-' :: (cs ++ d :: v) ∧ (∀ x ∈ cs, x ∈ letters (WrapOpts.shorts (wrapOpts c) .flag)) ∧
      d ∈ letters (WrapOpts.shorts (wrapOpts c) k) ∧ Behind t v) ↔ Short c.data.options k t w := by
  constructor
  · rintro ⟨cs, d, v, rfl, h1, h2, h3⟩
    obtain ⟨o, h4, h5⟩ := (letters_iff hw k d).mp h2
    exact ⟨cs, d, v, o, rfl, fun x hx => (letters_iff hw .flag x).mp (h1 x hx), h4, h5, h3⟩
  · rintro ⟨cs, d, v, o, rfl, h1, h2, h3, h4⟩
    exact ⟨cs, d, v, rfl, fun x hx => (letters_iff hw .flag x).mpr (h1 x hx), (letters_iff hw k d).mpr ⟨o, h2, h3⟩, h4⟩

include hw hh in
theorem branch_longArg (w : Str) : Decides holds
    (if (wrapOpts c).longArg ≠ [] then
      [⟨.glob (makeLongOptsPattern (wrapOpts c).longArg .arg), false⟩, ⟨.glob (makeLongOptsPattern (wrapOpts c).longArg .none), true⟩] else []) w
    (fun n => (n = 1 ∧ ValueOf c.data.options .required w) ∨ (n = 2 ∧ Whole c.data.options .required w)) := by
  have hf := names_fine hw .required
  have hn := whole_names hw .required w
  have hv := value_names hw .required w
  change (∃ s ∈ (wrapOpts c).longArg, _) ↔ _ at hv
  change w ∈ (wrapOpts c).longArg ↔ _ at hn
  change ∀ s ∈ (wrapOpts c).longArg, Fine s at hf
  by_cases he : (wrapOpts c).longArg = []
  · rw [if_neg (by simp [he])]
    refine decides_nil _ _ ?_
    rw [← hn, ← hv, he]
    simp
  · rw [if_pos he]
    refine decides_congr (decides_or (decides_single hh _ false w) (decides_single hh _ true w)) ?_
    intro n
    rw [pattern_arg he hf, pattern_none he hf, hn, hv]
    simp

include hw hh in
theorem branch_longOptional (w : Str) : Decides holds
    (if (wrapOpts c).longOptional ≠ [] then [⟨.glob (makeLongOptsPattern (wrapOpts c).longOptional .optional), false⟩] else []) w
    (fun n => n = 1 ∧ (Whole c.data.options .optional w ∨ ValueOf c.data.options .optional w)) := by
  have hf := names_fine hw .optional
  have hn := whole_names hw .optional w
  have hv := value_names hw .optional w
  change (∃ s ∈ (wrapOpts c).longOptional, _) ↔ _ at hv
  change w ∈ (wrapOpts c).longOptional ↔ _ at hn
  change ∀ s ∈ (wrapOpts c).longOptional, Fine s at hf
  by_cases he : (wrapOpts c).longOptional = []
  · rw [if_neg (by simp [he])]
    refine decides_nil _ _ ?_
    rw [← hn, ← hv, he]
    simp
  · rw [if_pos he]
    refine decides_congr (decides_single hh _ false w) ?_
    intro n
    rw [pattern_optional he hf, hn, hv]
    simp

include hw hh in
theorem branch_longFlag (w : Str) : Decides holds
    (if (wrapOpts c).longFlag ≠ [] then [⟨.glob (makeLongOptsPattern (wrapOpts c).longFlag .none), false⟩] else []) w
    (fun n => n = 1 ∧ Whole c.data.options .flag w) := by
  have hf := names_fine hw .flag
  have hn := whole_names hw .flag w
  change w ∈ (wrapOpts c).longFlag ↔ _ at hn
  change ∀ s ∈ (wrapOpts c).longFlag, Fine s at hf
  by_cases he : (wrapOpts c).longFlag = []
  · rw [if_neg (by simp [he])]
    refine decides_nil _ _ ?_
    rw [← hn, he]
    simp
  · rw [if_pos he]
    refine decides_congr (decides_single hh _ false w) ?_
    intro n
    rw [pattern_none he hf, hn]
    simp

include hw hh in
theorem branch_shortArg (w : Str) : Decides holds
    (if letters (wrapOpts c).shortArg ≠ [] then
      [⟨.regex (makeShortOptsArgRegex (letters (wrapOpts c).shortFlag) (letters (wrapOpts c).shortArg) .none), true⟩,
       ⟨.regex (makeShortOptsArgRegex (letters (wrapOpts c).shortFlag) (letters (wrapOpts c).shortArg) .arg), false⟩] else []) w
    (fun n => (n = 2 ∧ Short c.data.options .required .none w) ∨ (n = 1 ∧ Short c.data.options .required .arg w)) := by
  have hf := letters_brackets hw .flag
  have ha := letters_brackets hw .required
  have h1 := short_letters hw .required .none w
  have h2 := short_letters hw .required .arg w
  change ∀ d ∈ letters (wrapOpts c).shortFlag, _ at hf
  change ∀ d ∈ letters (wrapOpts c).shortArg, _ at ha
  by_cases he : letters (wrapOpts c).shortArg = []
  · rw [if_neg (by simp [he])]
    refine decides_nil _ _ ?_
    rw [← h1, ← h2]
    change ∀ n, ¬ ((n = 2 ∧ ∃ cs d v, _ ∧ _ ∧ d ∈ letters (wrapOpts c).shortArg ∧ _) ∨ (n = 1 ∧ ∃ cs d v, _ ∧ _ ∧ d ∈ letters (wrapOpts c).shortArg ∧ _))
    rw [he]
    simp
  · rw [if_pos he]
    refine decides_congr (decides_or (decides_single hh _ true w) (decides_single hh _ false w)) ?_
    intro n
    rw [regex_arg hf ha he, regex_arg hf ha he]
    exact or_congr (and_congr (by simp) h1) (and_congr (by simp) h2)

include hw hh in
theorem branch_shortOptional (w : Str) : Decides holds
    (if letters (wrapOpts c).shortOptional ≠ [] then
      [⟨.regex (makeShortOptsArgRegex (letters (wrapOpts c).shortFlag) (letters (wrapOpts c).shortOptional) .optional), false⟩] else []) w
    (fun n => n = 1 ∧ Short c.data.options .optional .optional w) := by
  have hf := letters_brackets hw .flag
  have ha := letters_brackets hw .optional
  have h1 := short_letters hw .optional .optional w
  change ∀ d ∈ letters (wrapOpts c).shortFlag, _ at hf
  change ∀ d ∈ letters (wrapOpts c).shortOptional, _ at ha
  by_cases he : letters (wrapOpts c).shortOptional = []
  · rw [if_neg (by simp [he])]
    refine decides_nil _ _ ?_
    rw [← h1]
    change ∀ n, ¬ (n = 1 ∧ ∃ cs d v, _ ∧ _ ∧ d ∈ letters (wrapOpts c).shortOptional ∧ _)
    rw [he]
    simp
  · rw [if_pos he]
    refine decides_congr (decides_single hh _ false w) ?_
    intro n
    rw [regex_arg hf ha he]
    exact and_congr (by simp) h1

include hw hh in
theorem branch_shortFlag (w : Str) : Decides holds
    (if letters (wrapOpts c).shortFlag ≠ [] then [⟨.regex (makeShortOptsFlagRegex (letters (wrapOpts c).shortFlag)), false⟩] else []) w
    (fun n => n = 1 ∧ ∃ cs, w = '-' :: cs ∧ cs ≠ [] ∧ Flags c.data.options cs) := by
  have hf := letters_brackets hw .flag
  have hl := letters_iff hw .flag
  change ∀ d ∈ letters (wrapOpts c).shortFlag, _ at hf
  change ∀ d, d ∈ letters (wrapOpts c).shortFlag ↔ _ at hl
  have hfl : ∀ cs, Flags c.data.options cs ↔ ∀ x ∈ cs, x ∈ letters (wrapOpts c).shortFlag :=
    fun cs => ⟨fun h x hx => (hl x).mpr (h x hx), fun h x hx => (hl x).mp (h x hx)⟩
  by_cases he : letters (wrapOpts c).shortFlag = []
  · rw [if_neg (by simp [he])]
    refine decides_nil _ _ ?_
    rintro n ⟨-, cs, -, hne, h⟩
    rw [hfl, he] at h
    cases cs with
    | nil => exact hne rfl
    | cons x r => exact absurd (h x (by simp)) (by simp)
  · rw [if_pos he]
    refine decides_congr (decides_single hh _ false w) ?_
    intro n
    rw [regex_flags he hf]
    simp only [hfl]
    simp

theorem ownNamed_iff (os : List Opt) (w : Str) (n : Nat) : OwnNamed os w n ↔
    (((n = 1 ∧ ValueOf os .required w) ∨ (n = 2 ∧ Whole os .required w)) ∨ (n = 1 ∧ (Whole os .optional w ∨ ValueOf os .optional w))) ∨
      (n = 1 ∧ Whole os .flag w) := by
  constructor
  · intro h
    cases h with
    | @alone _ o h1 h2 =>
      cases hk : o.kind with
      | required => exact absurd hk h2
      | optional => exact Or.inl (Or.inr ⟨rfl, Or.inl ⟨o, h1, hk⟩⟩)
      | flag => exact Or.inr ⟨rfl, o, h1, hk⟩
    | @withNext _ o h1 h2 => exact Or.inl (Or.inl (Or.inr ⟨rfl, o, h1, h2⟩))
    | @withValue s o v h1 h2 =>
      cases hk : o.kind with
      | required => exact Or.inl (Or.inl (Or.inl ⟨rfl, s, o, v, h1, hk, rfl⟩))
      | optional => exact Or.inl (Or.inr ⟨rfl, Or.inr ⟨s, o, v, h1, hk, rfl⟩⟩)
      | flag => exact absurd hk h2
  · rintro (((⟨rfl, s, o, v, h1, h2, rfl⟩ | ⟨rfl, o, h1, h2⟩) | ⟨rfl, ⟨o, h1, h2⟩ | ⟨s, o, v, h1, h2, rfl⟩⟩) | ⟨rfl, o, h1, h2⟩)
    · exact .withValue v h1 (by rw [h2]; simp)
    · exact .withNext h1 h2
    · exact .alone h1 (by rw [h2]; simp)
    · exact .withValue v h1 (by rw [h2]; simp)
    · exact .alone h1 (by rw [h2]; simp)

theorem ownCluster_iff (os : List Opt) (w : Str) (n : Nat) : OwnCluster os w n ↔
    (((n = 2 ∧ Short os .required .none w) ∨ (n = 1 ∧ Short os .required .arg w)) ∨ (n = 1 ∧ Short os .optional .optional w)) ∨
      (n = 1 ∧ ∃ cs, w = '-' :: cs ∧ cs ≠ [] ∧ Flags os cs) := by
  constructor
  · intro h
    cases h with
    | @flags cs h1 h2 => exact Or.inr ⟨rfl, cs, rfl, h1, h2⟩
    | @withNext cs d o h1 h2 h3 => exact Or.inl (Or.inl (Or.inl ⟨rfl, cs, d, [], o, rfl, h1, h2, h3, rfl⟩))
    | @withValue cs d o v h1 h2 h3 h4 => exact Or.inl (Or.inl (Or.inr ⟨rfl, cs, d, v, o, rfl, h1, h2, h3, h4⟩))
    | @optional cs d o v h1 h2 h3 => exact Or.inl (Or.inr ⟨rfl, cs, d, v, o, rfl, h1, h2, h3, trivial⟩)
  · rintro (((⟨rfl, cs, d, v, o, rfl, h1, h2, h3, rfl⟩ | ⟨rfl, cs, d, v, o, rfl, h1, h2, h3, h4⟩) | ⟨rfl, cs, d, v, o, rfl, h1, h2, h3, -⟩) |
      ⟨rfl, cs, rfl, h1, h2⟩)
    · exact .withNext h1 h2 h3
    · exact .withValue h1 h2 h3 h4
    · exact .optional v h1 h2 h3
    · exact .flags h1 h2

include hw hh in
/-- The chain of tests decides whether a word is an option of the program. -/
theorem chain_decides (w : Str) : Decides holds (wrapBranches (wrapOpts c)) w (Own c.data.options w) := by
  have hn := decides_congr (decides_or (decides_or (branch_longArg hw hh w) (branch_longOptional hw hh w)) (branch_longFlag hw hh w))
    (fun n => (ownNamed_iff c.data.options w n).symm)
  have hc := decides_congr (decides_or (decides_or (branch_shortArg hw hh w) (branch_shortOptional hw hh w)) (branch_shortFlag hw hh w))
    (fun n => (ownCluster_iff c.data.options w n).symm)
  have := decides_then hn hc
  simp only [wrapBranches, List.append_assoc] at this ⊢
  exact this

/-! ## One reading -/

include hw in
theorem name_no_equals {s : Str} {o : Opt} (h : Named c.data.options s o) : '=' ∉ s := by
  rcases hw.shape o h.1 s h.2.1 with ⟨d, rfl, -⟩ | ⟨n, rfl, -, -, hn⟩ | ⟨n, rfl, -, -, hn⟩
  · have := h.2.2; simp at this
  · intro hm
    have : '=' ∈ n := by simpa using hm
    exact hn _ this (by decide)
  · intro hm
    have : '=' ∈ n := by simpa using hm
    exact hn _ this (by decide)

include hw in
theorem ownNamed_unique {w : Str} {m n : Nat} (h1 : OwnNamed c.data.options w m) (h2 : OwnNamed c.data.options w n) : m = n := by
  cases h1 with
  | alone a1 a2 =>
    cases h2 with
    | alone => rfl
    | withNext b1 b2 => exact absurd ((hw.agree _ a1.1 _ b1.1 w a1.2.1 b1.2.1).trans b2) a2
    | withValue v b1 b2 => rfl
  | withNext a1 a2 =>
    cases h2 with
    | alone b1 b2 => exact absurd ((hw.agree _ b1.1 _ a1.1 w b1.2.1 a1.2.1).trans a2) b2
    | withNext => rfl
    | withValue v b1 b2 => exact absurd (by simp) (name_no_equals hw a1)
  | withValue v a1 a2 =>
    generalize hx : _ ++ '=' :: v = x at h2
    cases h2 with
    | alone => rfl
    | withNext b1 b2 => rw [← hx] at b1; exact absurd (by simp) (name_no_equals hw b1)
    | withValue => rfl

include hw in
theorem letter_agree {d : Char} {o o' : Opt} (h1 : Letter c.data.options d o) (h2 : Letter c.data.options d o') : o.kind = o'.kind :=
  hw.agree _ h1.1 _ h2.1 _ h1.2 h2.2

include hw in
theorem cluster_unique {cs cs' : Str} {d d' : Char} {v v' : Str} {o o' : Opt} (he : cs ++ d :: v = cs' ++ d' :: v')
    (hf : Flags c.data.options cs) (hf' : Flags c.data.options cs') (hd : Letter c.data.options d o) (hd' : Letter c.data.options d' o')
    (hk : o.kind ≠ .flag) (hk' : o'.kind ≠ .flag) : d = d' ∧ v = v' := by
  induction cs generalizing cs' with
  | nil =>
    cases cs' with
    | nil => simpa using he
    | cons x r =>
      simp only [List.nil_append, List.cons_append, List.cons.injEq] at he
      obtain ⟨o2, h1, h2⟩ := hf' x (by simp)
      rw [← he.1] at h1
      exact absurd ((letter_agree hw hd h1).trans h2) hk
  | cons y s ih =>
    cases cs' with
    | nil =>
      simp only [List.nil_append, List.cons_append, List.cons.injEq] at he
      obtain ⟨o2, h1, h2⟩ := hf y (by simp)
      rw [he.1] at h1
      exact absurd ((letter_agree hw hd' h1).trans h2) hk'
    | cons x r =>
      simp only [List.cons_append, List.cons.injEq] at he
      exact ih he.2 (fun z hz => hf z (by simp [hz])) (fun z hz => hf' z (by simp [hz]))

include hw in
theorem flags_not_cluster {cs cs' : Str} {d : Char} {v : Str} {o : Opt} (he : cs = cs' ++ d :: v) (hf : Flags c.data.options cs)
    (hd : Letter c.data.options d o) : o.kind = .flag := by
  obtain ⟨o2, h1, h2⟩ := hf d (by rw [he]; simp)
  exact (letter_agree hw hd h1).trans h2

include hw in
theorem ownCluster_unique {w : Str} {m n : Nat} (h1 : OwnCluster c.data.options w m) (h2 : OwnCluster c.data.options w n) : m = n := by
  rw [ownCluster_iff] at h1 h2
  rcases h1 with ((⟨rfl, cs, d, v, o, e, a1, a2, a3, a4⟩ | ⟨rfl, cs, d, v, o, e, a1, a2, a3, a4⟩) | ⟨rfl, cs, d, v, o, e, a1, a2, a3, a4⟩) |
      ⟨rfl, cs, e, a1, a2⟩ <;>
  rcases h2 with ((⟨rfl, cs', d', v', o', e', b1, b2, b3, b4⟩ | ⟨rfl, cs', d', v', o', e', b1, b2, b3, b4⟩) | ⟨rfl, cs', d', v', o', e', b1, b2, b3, b4⟩) |
      ⟨rfl, cs', e', b1, b2⟩ <;> first
    | rfl
    | (exfalso
       rw [e] at e'
       simp only [List.cons.injEq, true_and] at e'
       first
       | (have hu := cluster_unique hw e' a1 b1 a2 b2 (by rw [a3]; simp) (by rw [b3]; simp)
          obtain ⟨rfl, rfl⟩ := hu
          have hk := letter_agree hw a2 b2
          rw [a3, b3] at hk
          simp_all [Behind])
       | (have hk := flags_not_cluster hw e' a2 b2; rw [b3] at hk; cases hk)
       | (have hk := flags_not_cluster hw e'.symm b2 a2; rw [a3] at hk; cases hk))

include hw in
theorem own_unique {w : Str} {m n : Nat} (h1 : Own c.data.options w m) (h2 : Own c.data.options w n) : m = n := by
  rcases h1 with h1 | ⟨n1, h1⟩ <;> rcases h2 with h2 | ⟨n2, h2⟩
  · exact ownNamed_unique hw h1 h2
  · exact absurd h1 (n2 _)
  · exact absurd h2 (n1 _)
  · exact ownCluster_unique hw h1 h2

theorem own_number {os : List Opt} {w : Str} {n : Nat} (h : Own os w n) : n = 1 ∨ n = 2 := by
  rcases h with h | ⟨-, h⟩ <;> cases h <;> simp

include hw hh in
/-- What the chain of tests says about a word. -/
theorem hit_iff (w : Str) :
    (wrapHit holds (wrapBranches (wrapOpts c)) w = some false ↔ Own c.data.options w 1) ∧
    (wrapHit holds (wrapBranches (wrapOpts c)) w = some true ↔ Own c.data.options w 2) ∧
    (wrapHit holds (wrapBranches (wrapOpts c)) w = none ↔ ∀ n, ¬ Own c.data.options w n) := by
  obtain ⟨h1, h2⟩ := chain_decides hw hh w
  cases hx : wrapHit holds (wrapBranches (wrapOpts c)) w with
  | none =>
    have := h2 hx
    exact ⟨by simp [this 1], by simp [this 2], by simp [this]⟩
  | some b =>
    have hb := h1 b hx
    cases b with
    | true =>
      have hb : Own c.data.options w 2 := hb
      exact ⟨⟨by simp, fun h => absurd (own_unique hw h hb) (by decide)⟩, by simp [hb], ⟨by simp, fun h => absurd hb (h 2)⟩⟩
    | false =>
      have hb : Own c.data.options w 1 := hb
      exact ⟨by simp [hb], ⟨by simp, fun h => absurd (own_unique hw h hb) (by decide)⟩, ⟨by simp, fun h => absurd hb (h 1)⟩⟩

include hw in
/-- A word that does not begin with a dash is not an option. -/
theorem operand_not_own {w : Str} (h : w.head? ≠ some '-') (n : Nat) : ¬ Own c.data.options w n := by
  have named : ∀ s o, Named c.data.options s o → s.head? = some '-' := by
    intro s o hs
    rcases hw.shape o hs.1 s hs.2.1 with ⟨d, rfl, -⟩ | ⟨m, rfl, -⟩ | ⟨m, rfl, -⟩ <;> rfl
  rintro (h1 | ⟨-, h1⟩)
  · cases h1 with
    | alone a => exact h (named _ _ a)
    | withNext a => exact h (named _ _ a)
    | @withValue s o v a =>
      have := named _ _ a
      cases s with
      | nil => cases this
      | cons x r => exact h (by simpa using this)
  · cases h1 <;> exact h rfl

/-! ## Lines -/

variable {hit : Str → Option Bool}

theorem delete_none {w : Str} (h : hit w = none) (i : Nat) (r : List Str) : wrapDelete hit i (w :: r) = wrapDelete hit (i + 1) r := by
  rw [wrapDelete.eq_def]; simp only [h]

theorem delete_one {w : Str} (h : hit w = some false) (i : Nat) (r : List Str) :
    wrapDelete hit i (w :: r) = i :: wrapDelete hit (i + 1) r := by
  rw [wrapDelete.eq_def]; simp only [h]

theorem delete_two {w : Str} (h : hit w = some true) (i : Nat) (a : Str) (r : List Str) :
    wrapDelete hit i (w :: a :: r) = i :: (i + 1) :: wrapDelete hit (i + 2) r := by
  rw [wrapDelete.eq_def]; simp only [h]

theorem delete_last {w : Str} (h : hit w = some true) (i : Nat) : wrapDelete hit i [w] = [i, i + 1] := by
  rw [wrapDelete.eq_def]; simp only [h]

theorem delete_ge : ∀ (i : Nat) (ws : List Str), ∀ d ∈ wrapDelete hit i ws, i ≤ d
  | i, [] => by simp [wrapDelete]
  | i, [w] => by
    cases h : hit w with
    | none => rw [delete_none h]; simp [wrapDelete]
    | some b =>
      cases b with
      | false => rw [delete_one h]; simp [wrapDelete]
      | true => rw [delete_last h]; simp
  | i, w :: a :: r => by
    have h1 := delete_ge (i + 1) (a :: r)
    have h2 := delete_ge (i + 2) r
    cases h : hit w with
    | none => rw [delete_none h]; intro d hd; have := h1 d hd; omega
    | some b =>
      cases b with
      | false =>
        rw [delete_one h]; intro d hd
        rcases List.mem_cons.mp hd with rfl | hd
        · omega
        · have := h1 d hd; omega
      | true =>
        rw [delete_two h]; intro d hd
        rcases List.mem_cons.mp hd with rfl | hd
        · omega
        · rcases List.mem_cons.mp hd with rfl | hd
          · omega
          · have := h2 d hd; omega

theorem kept_congr {D E : List Nat} : ∀ (i : Nat) (ws : List Str), (∀ j, i ≤ j → (j ∈ D ↔ j ∈ E)) → wrapKept D i ws = wrapKept E i ws
  | _, [], _ => rfl
  | i, w :: r, h => by
    simp only [wrapKept]
    rw [kept_congr (i + 1) r (fun j hj => h j (by omega))]
    simp only [h i (Nat.le_refl i)]

variable {os : List Opt} (hhit : ∀ w, (hit w = some false ↔ Own os w 1) ∧ (hit w = some true ↔ Own os w 2) ∧ (hit w = none ↔ ∀ n, ¬ Own os w n))

include hhit in
theorem kept_strip {ws k : List Str} {p : Bool} (h : Strip os ws k p) (i : Nat) : wrapKept (wrapDelete hit i ws) i ws = k := by
  induction h generalizing i with
  | nil => rfl
  | @keep w r k p h1 _ ih =>
    rw [delete_none ((hhit w).2.2.mpr h1), wrapKept, if_neg, ih]
    intro hm; have := delete_ge _ _ _ hm; omega
  | @one w r k p h1 _ ih =>
    rw [delete_one ((hhit w).1.mpr h1), wrapKept, if_pos (by simp), ← ih (i + 1)]
    apply kept_congr
    intro j hj
    simp only [List.mem_cons]
    constructor
    · rintro (rfl | h)
      · omega
      · exact h
    · exact Or.inr
  | @two w a r k p h1 _ ih =>
    rw [delete_two ((hhit w).2.1.mpr h1), wrapKept, if_pos (by simp), wrapKept, if_pos (by simp), ← ih (i + 2)]
    apply kept_congr
    intro j hj
    simp only [List.mem_cons]
    constructor
    · rintro (rfl | rfl | h)
      · omega
      · omega
      · exact h
    · exact fun h => Or.inr (Or.inr h)
  | @awaits w h1 =>
    rw [delete_last ((hhit w).2.1.mpr h1), wrapKept, if_pos (by simp), wrapKept]

theorem filter_ge {l : List Nat} {n m : Nat} (h : ∀ d ∈ l, n ≤ d) (hm : m ≤ n) : l.filter (fun d => decide (d < m)) = [] := by
  rw [List.filter_eq_nil_iff]
  intro d hd
  have := h d hd
  simp; omega

include hhit in
/-- The number of deleted words in front of the cursor. -/
theorem adjust_strip {b k : List Str} {p : Bool} (h : Strip os b k p) (cur : Str) (a : List Str) (i m : Nat) (hm : m = i + b.length) :
    ((wrapDelete hit i (b ++ cur :: a)).filter (fun d => decide (d < m))).length + k.length = b.length := by
  induction h generalizing i with
  | nil =>
    simp only [List.nil_append]
    rw [filter_ge (delete_ge i _) (by simp at hm; omega)]
    rfl
  | @keep w r k p h1 _ ih =>
    simp only [List.length_cons] at hm
    have := ih (i + 1) (by omega)
    simp only [List.cons_append, List.length_cons]
    rw [delete_none ((hhit w).2.2.mpr h1)]
    omega
  | @one w r k p h1 _ ih =>
    simp only [List.length_cons] at hm
    have := ih (i + 1) (by omega)
    simp only [List.cons_append, List.length_cons]
    rw [delete_one ((hhit w).1.mpr h1), List.filter_cons, if_pos (by simp; omega)]
    simp only [List.length_cons]
    omega
  | @two w x r k p h1 _ ih =>
    simp only [List.length_cons] at hm
    have := ih (i + 2) (by omega)
    simp only [List.cons_append, List.length_cons]
    rw [delete_two ((hhit w).2.1.mpr h1), List.filter_cons, if_pos (by simp; omega),
      List.filter_cons, if_pos (by simp; omega)]
    simp only [List.length_cons]
    omega
  | @awaits w h1 =>
    simp only [List.length_cons, List.length_nil] at hm
    simp only [List.cons_append, List.nil_append, List.length_cons, List.length_nil]
    rw [delete_two ((hhit w).2.1.mpr h1), List.filter_cons, if_pos (by simp; omega), List.filter_cons, if_neg (by simp; omega),
      filter_ge (delete_ge (i + 2) _) (by omega)]
    rfl

theorem strip_append {b kb r kr : List Str} {p : Bool} (h1 : Strip os b kb false) (h2 : Strip os r kr p) : Strip os (b ++ r) (kb ++ kr) p := by
  generalize hq : false = q at h1
  induction h1 with
  | nil => simpa using h2
  | keep h _ ih => exact .keep h (ih hq)
  | one h _ ih => exact .one h (ih hq)
  | two h _ ih => exact .two h (ih hq)
  | awaits h => cases hq

/-- Every line can be stripped. -/
theorem strip_total (os : List Opt) : ∀ ws : List Str, ∃ k p, Strip os ws k p
  | [] => ⟨[], false, .nil⟩
  | [w] => by
    by_cases h2 : Own os w 2
    · exact ⟨[], true, .awaits h2⟩
    · by_cases h1 : Own os w 1
      · exact ⟨[], false, .one h1 .nil⟩
      · exact ⟨[w], false, .keep (fun n hn => by rcases own_number hn with rfl | rfl; exact h1 hn; exact h2 hn) .nil⟩
  | w :: a :: r => by
    by_cases h2 : Own os w 2
    · obtain ⟨k, p, h⟩ := strip_total os r; exact ⟨k, p, .two h2 h⟩
    · obtain ⟨k, p, h⟩ := strip_total os (a :: r)
      by_cases h1 : Own os w 1
      · exact ⟨k, p, .one h1 h⟩
      · exact ⟨w :: k, p, .keep (fun n hn => by rcases own_number hn with rfl | rfl; exact h1 hn; exact h2 hn) h⟩

end ZshWrap
end CC
