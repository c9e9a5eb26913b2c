import Verif.Lemmas.Application
import Verif.Lemmas.YamlExport
import Verif.Props.StrUtils
/-!
# C100: the options of the program become settings
-/

namespace CC

open App

/-- The settings are those that the options ask for, field by field, and there are none exactly if the separator is unknown. -/
theorem C100_settings (o : AppOpts) : (∀ c, configFromOptions o = some c ↔ WantedSettings o c) ∧
    (configFromOptions o = none ↔ o.longSep ∉ [S "space", S "equals", S "both"]) := by
  refine ⟨fun c => config_iff, ?_⟩
  constructor
  · intro h hm
    have : ∃ c, configFromOptions o = some c := by
      unfold configFromOptions setLongSep
      simp only [List.mem_cons, List.not_mem_nil, or_false] at hm
      rcases hm with e | e | e
      · rw [e, if_pos rfl]; exact ⟨_, rfl⟩
      · rw [e, if_neg (by decide), if_pos rfl]; exact ⟨_, rfl⟩
      · rw [e, if_neg (by decide), if_neg (by decide), if_pos rfl]; exact ⟨_, rfl⟩
    obtain ⟨c, hc⟩ := this
    rw [h] at hc
    cases hc
  · intro hm
    cases h : configFromOptions o with
    | none => rfl
    | some c =>
      exfalso
      apply hm
      have := (config_wanted h).longSep
      simp only [List.mem_cons, Prod.mk.injEq, List.not_mem_nil, or_false] at this
      simp only [List.mem_cons, List.not_mem_nil, or_false]
      rcases this with ⟨e, -⟩ | ⟨e, -⟩ | ⟨e, -⟩
      · exact .inl e
      · exact .inr (.inl e)
      · exact .inr (.inr e)

/-- The extension of the definition file is found as the specification says. -/
theorem C100_extension (p : Str) {e : Str} (he : e ≠ []) : fileExtension p = e ↔ HasExtension p e := extension_iff p he

/-- `--disable` takes names of features with commas between them, and nothing else. -/
theorem C100_features (s : Str) (l : List Str) :
    featureList s = some l ↔ l ≠ [] ∧ joinWith [','] l = s ∧ ∀ f ∈ l, f ∈ [S "hidden", S "final", S "groups", S "repeatable", S "when"] := by
  have hcomma : ∀ f ∈ [S "hidden", S "final", S "groups", S "repeatable", S "when"], ',' ∉ f := by decide
  have hall : ∀ l : List Str, l.all (fun f => featureNames.contains f) = true ↔ ∀ f ∈ l, f ∈ [S "hidden", S "final", S "groups", S "repeatable", S "when"] := by
    intro l
    rw [List.all_eq_true]
    unfold featureNames
    simp only [List.contains_iff_mem]
  unfold featureList
  constructor
  · intro h
    split at h
    · rename_i ha
      cases h
      exact ⟨splitOn_ne_nil _ _, join_splitOn _ _, (hall _).mp ha⟩
    · cases h
  · rintro ⟨hne, rfl, ha⟩
    rw [splitOn_join ',' l hne (fun f hf => hcomma f (ha f hf)), if_pos ((hall _).mpr ha)]

/-- `boolean` reads `true` and `false`, whatever letters are capitals. -/
theorem C100_boolean (s : Str) (b : Bool) : boolOfStr s = some b ↔ lower s = (if b then S "true" else S "false") := by
  unfold boolOfStr
  have hne : S "true" ≠ S "false" := by decide
  cases b
  · by_cases h : lower s = S "true"
    · simp [h, hne]
    · by_cases h2 : lower s = S "false"
      · simp [h2, hne.symm]
      · simp [h, h2]
  · by_cases h : lower s = S "true"
    · simp [h]
    · by_cases h2 : lower s = S "false"
      · simp [h2, hne.symm]
      · simp [h, h2]

theorem intDigits_all : ∀ (ds : Str) (acc : Nat), (∀ c ∈ ds, c.isDigit = true) → intDigits acc ds = some (Nat.ofDigitChars 10 ds acc)
  | [], acc, _ => by simp [intDigits, Nat.ofDigitChars]
  | [c], acc, h => by
    unfold intDigits
    rw [if_pos (h c (by simp))]
    simp [Nat.ofDigitChars, Nat.mul_comm]
  | c :: d :: ds, acc, h => by
    unfold intDigits
    rw [if_pos (h c (by simp)), intDigits_all (d :: ds) _ (fun x hx => h x (by simp [List.mem_cons] at hx ⊢; exact .inr hx))]
    simp [Nat.ofDigitChars, Nat.mul_comm]

theorem digits_strip {ds : Str} (h : ∀ c ∈ ds, c.isDigit = true) : strip ds = ds := by
  have hsp : ∀ c : Char, c.isDigit = true → pyIsSpace c = false := by
    intro c hc
    simp only [Char.isDigit, Bool.and_eq_true, decide_eq_true_eq] at hc
    have h1 : 48 ≤ c.toNat := UInt32.le_iff_toNat_le.mp hc.1
    have h2 : c.toNat ≤ 57 := UInt32.le_iff_toNat_le.mp hc.2
    simp [pyIsSpace]
    omega
  have hl : ∀ s : Str, (∀ c ∈ s, c.isDigit = true) → lstrip s = s := by
    intro s hs
    cases s with
    | nil => rfl
    | cons c s =>
      unfold lstrip
      rw [if_neg (by rw [hsp c (hs c (by simp))]; simp)]
  unfold strip rstrip
  rw [hl ds h, hl ds.reverse (fun c hc => h c (by simpa using hc)), List.reverse_reverse]

theorem pyInt_natStr (n : Nat) : pyInt (natStr n) = some (Int.ofNat n) := by
  have hd : ∀ c ∈ natStr n, c.isDigit = true := fun c hc => natStr_isDigit hc
  have hv : Nat.ofDigitChars 10 (natStr n) 0 = n := Nat.ofDigitChars_toDigits (by decide) (by decide)
  have hb : intBody (natStr n) = some n := by
    cases hs : natStr n with
    | nil => exact absurd hs (natStr_nonempty n)
    | cons c t =>
      rw [hs] at hd hv
      show (if c.isDigit then intDigits (c.toNat - 48) t else none) = some n
      rw [if_pos (hd c (by simp)), intDigits_all t _ (fun x hx => hd x (by simp [hx]))]
      rw [← hv]
      simp [Nat.ofDigitChars]
  unfold pyInt
  rw [digits_strip hd]
  split
  · rename_i t e
    exact absurd e (digits_ne hd '-' (by decide) t)
  · rename_i t e
    exact absurd e (digits_ne hd '+' (by decide) t)
  · rw [hb]; rfl

/-- A version that is written as numbers with dots between them is read as those numbers. -/
theorem C100_version (l : List Nat) (hne : l ≠ []) : versionOfStr (joinWith ['.'] (l.map natStr)) = some (l.map Int.ofNat) := by
  unfold versionOfStr
  rw [splitOn_join '.' (l.map natStr) (by simpa using hne) (by
    intro s hs hd
    rw [List.mem_map] at hs
    obtain ⟨n, -, rfl⟩ := hs
    exact absurd (natStr_isDigit hd) (by decide))]
  clear hne
  induction l with
  | nil => rfl
  | cons n l ih =>
    rw [List.map_cons, List.mapM_cons, pyInt_natStr, ih]
    rfl

/-- Examples: an option for a feature, a version, an extension; and what is refused. -/
theorem C100_example : featureList (S "hidden,when") = some [S "hidden", S "when"] ∧ featureList (S "hidden,") = none ∧
    versionOfStr (S "2.12") = some [2, 12] ∧ versionOfStr (S "2.x") = none ∧ boolOfStr (S "True") = some true ∧ boolOfStr (S "yes") = none ∧
    fileExtension (S "a.d/x.tar.JSON") = S "json" ∧ fileExtension (S ".json") = [] ∧
    (configFromOptions { shell := .bash, definitionFile := [], longSep := S "none" }).isNone = true ∧
    (configFromOptions { shell := .bash, definitionFile := [], disable := [S "final"], maxLineLength := 0 }).map (fun c => (c.base.disabledFinal, c.base.disabledWhen, c.lineLength)) =
      some (true, false, none) := by
  refine ⟨by decide +kernel, by decide +kernel, by decide +kernel, by decide +kernel, by decide +kernel, by decide +kernel, by decide +kernel, by decide +kernel,
    by decide +kernel, by decide +kernel⟩

/-- Negative numbers, blanks and signs are versions too. -/
theorem C100_odd_versions : versionOfStr (S "-2. +1_0") = some [-2, 10] := by decide +kernel

end CC
