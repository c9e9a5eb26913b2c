import Verif.Lemmas.BashOwn
import Verif.Lemmas.Cmdline
/-!
# What the dispatcher of a command does with a word
-/

namespace CC

theorem mem_namesOf {parents : List Cmd} {c : Cmd} {ss : List Str} {s : Str} (h : s ∈ namesOf parents c ss) :
    ∃ l ∈ ss, s <+: l ∧ (s = l ∨ 3 ≤ s.length) := by
  unfold namesOf at h
  split at h
  · obtain ⟨l, hl, h⟩ := List.mem_flatMap.mp h
    have := (mem_abbreviationsOf ..).mp h
    exact ⟨l, hl, this.1, Or.inr this.2.1⟩
  · exact ⟨s, h, List.prefix_refl s, Or.inl rfl⟩

theorem own_in_all {root : Cmd} {parents : List Cmd} {c : Cmd} (hat : At root parents c) (wp : Bool) {o : Opt}
    (h : o ∈ c.data.options) : o ∈ getOptions parents c wp false := by
  rw [C16_mem root parents c hat]
  refine ⟨[], c, if wp then parents.reverse else [], ?_, List.mem_filter.mpr ⟨h, rfl⟩, by simp⟩
  unfold searched
  cases wp <;> rfl

theorem short_letter {x y : Char} (hy : y ≠ '-') : x ∈ (['-', y] : Str).dropWhile (· == '-') ↔ x = y := by
  have : (y == '-') = false := by simpa using hy
  simp [List.dropWhile, this]

section
variable {root : Cmd} (ho : CleanOptions root) {parents : List Cmd} {c : Cmd} (hat : At root parents c)
include ho hat

theorem mem_shortLetters {wp : Bool} (p : Opt → Bool) (x : Char) :
    x ∈ shortLetters ((getOptions parents c wp false).filter p) ↔
      ∃ o ∈ getOptions parents c wp false, p o = true ∧ ['-', x] ∈ o.strings := by
  unfold shortLetters
  simp only [List.mem_flatMap, List.mem_filter]
  constructor
  · rintro ⟨o, ⟨ho1, hp⟩, s, hs, hx⟩
    obtain ⟨qs, y, hy, hxy⟩ := getOptions_from hat ho1
    obtain ⟨hs1, z, rfl, hz⟩ := ((optStrings_iff (ho.valid _ _ hy o hxy) s).1).mp hs
    rw [short_letter hz] at hx
    subst hx
    exact ⟨o, ho1, hp, hs1⟩
  · rintro ⟨o, ho1, hp, hs⟩
    obtain ⟨qs, y, hy, hxy⟩ := getOptions_from hat ho1
    have hv := (ho.valid _ _ hy o hxy)
    have hx : x ≠ '-' := by
      rintro rfl
      exact (hv _ hs).1.1 rfl
    exact ⟨o, ⟨ho1, hp⟩, _, ((optStrings_iff hv _).1).mpr ⟨hs, x, rfl, hx⟩, (short_letter hx).mpr rfl⟩

theorem listed_iff (cs : Str) : (cs.all (fun x => (infoOf parents c).noArgs.contains x)) = true ↔ ListedFlags parents c cs := by
  unfold ListedFlags
  rw [List.all_eq_true]
  refine forall_congr' fun x => imp_congr_right fun _ => ?_
  rw [List.contains_iff_mem]
  show x ∈ shortLetters _ ↔ _
  rw [mem_shortLetters ho hat]
  refine exists_congr fun o => and_congr_right fun _ => and_congr_left fun _ => ?_
  unfold Opt.hasRequiredArg Opt.hasOptionalArg
  cases o.complete <;> simp

theorem mem_requiredArgs {o : Opt} (hm : o ∈ c.data.options) (hk : o.kind = .required) {x : Char} (hs : ['-', x] ∈ o.strings) :
    x ∈ (infoOf parents c).requiredArgs := by
  refine (mem_shortLetters ho hat (fun o => o.hasRequiredArg) x).mpr ⟨o, own_in_all hat _ hm, kind_required.mp hk, hs⟩

theorem mem_argLetters {o : Opt} (hm : o ∈ c.data.options) (hk : o.kind ≠ .flag) {x : Char} (hs : ['-', x] ∈ o.strings) :
    x ∈ (infoOf parents c).requiredArgs ++ (infoOf parents c).optionalArgs := by
  rw [List.mem_append]
  cases h : o.kind with
  | flag => exact absurd h hk
  | required => exact Or.inl (mem_requiredArgs ho hat hm h hs)
  | optional =>
    right
    refine (mem_shortLetters ho hat (fun o => !o.hasRequiredArg && o.hasOptionalArg) x).mpr ⟨o, own_in_all hat _ hm, ?_, hs⟩
    have h2 : o.hasRequiredArg = false := by
      cases h3 : o.hasRequiredArg with
      | false => rfl
      | true => rw [kind_required.mpr h3] at h; cases h
    simp [h2, kind_optional.mp h]

/-- An option with a single letter is named only by that. -/
theorem names_short {x : Char} {o : Opt} (h : NamesOption parents c ['-', x] o) : ['-', x] ∈ o.strings ∧ x ≠ '-' := by
  have : ['-', x] ∈ o.strings := by
    rcases h.2 with h | ⟨_, h, _⟩
    · exact h
    · simp at h
  refine ⟨this, ?_⟩
  rintro rfl
  exact ((ho.valid _ _ hat o h.1 _ this).1).1 rfl

theorem names_long {s : Str} {o : Opt} (h : NamesOption parents c s o) (hl : IsLong s) : ∃ l ∈ o.strings, IsLong l := by
  rcases h.2 with h | ⟨_, h3, l, hl', ho', hp, -⟩
  · exact ⟨s, h, hl⟩
  · refine ⟨l, hl', ?_⟩
    rcases ho' with h | h
    · exact h
    · obtain ⟨a, b, r, hs, hne⟩ := (prefix_style hp h3).2 h
      obtain ⟨a', r', hs'⟩ := hl
      rw [hs'] at hs
      simp at hs
      exact absurd hs.1.symm hne

theorem names_old {s : Str} {o : Opt} (h : NamesOption parents c s o) (hl : IsOld s) : ∃ l ∈ o.strings, IsOld l := by
  rcases h.2 with h | ⟨_, h3, l, hl', ho', hp, -⟩
  · exact ⟨s, h, hl⟩
  · refine ⟨l, hl', ?_⟩
    rcases ho' with h | h
    · obtain ⟨a', r', hs'⟩ := (prefix_style hp h3).1 h
      obtain ⟨a, b, r, hs, hne⟩ := hl
      rw [hs'] at hs
      simp at hs
      exact absurd hs.1.symm hne
    · exact h

theorem names_noEq {s : Str} {o : Opt} (h : NamesOption parents c s o) : '=' ∉ s := by
  rcases h.2 with hs | ⟨_, _, l, hl, _, hp, -⟩
  · exact (ho.valid _ _ hat o h.1 _ hs).2
  · exact fun he => (ho.valid _ _ hat o h.1 _ hl).2 (hp.subset he)

theorem names_shape {s : Str} {o : Opt} (h : NamesOption parents c s o) : 2 ≤ s.length ∧ s ≠ ['-', '-'] ∧ s.head? = some '-' := by
  rcases h.2 with hs | ⟨_, h3, l, hl, hst, hp, -⟩
  · obtain ⟨h1, a, r, rfl, -⟩ := (ho.valid _ _ hat o h.1 _ hs).1
    exact ⟨by simp, h1, rfl⟩
  · refine ⟨by omega, ?_, ?_⟩
    · rintro rfl; simp at h3
    · rcases hst with h | h
      · obtain ⟨a, r, rfl⟩ := (prefix_style hp h3).1 h; rfl
      · obtain ⟨a, b, r, rfl, _⟩ := (prefix_style hp h3).2 h; rfl

theorem oldStrings_shape {s : Str} (h : s ∈ (infoOf parents c).oldStrings) : '=' ∉ s ∧ startsWith s ['-'] = true := by
  obtain ⟨l, hl, hp, hlen⟩ := mem_namesOf h
  obtain ⟨o, hm, hl⟩ := List.mem_flatMap.mp hl
  obtain ⟨qs, y, hy, hxy⟩ := getOptions_from hat hm
  have hv := ho.valid _ _ hy o hxy
  obtain ⟨h1, h2⟩ := ((optStrings_iff hv l).2.2).mp hl
  refine ⟨fun he => (hv _ h1).2 (hp.subset he), ?_⟩
  have h3 : 3 ≤ s.length := by
    rcases hlen with rfl | h
    · obtain ⟨a, b, r, rfl, _⟩ := h2; simp
    · exact h
  obtain ⟨a, b, r, rfl, _⟩ := (prefix_style hp h3).2 h2
  simp [startsWith]

variable (hk : HasCompleters c)
include hk

theorem info_any (kd : ArgKind) (hkd : kd ≠ .flag) (strs : Opt → List Str) (P : Str → Prop)
    (hs : ∀ o ∈ c.data.options, ∀ s, s ∈ strs o ↔ s ∈ o.strings ∧ P s) :
    (getOptions parents c false true).any (fun o => !(strs o).isEmpty && decide (o.kind = kd)) = true ↔
      ∃ o ∈ c.data.options, o.kind = kd ∧ ∃ s ∈ o.strings, P s := by
  rw [List.any_eq_true]
  constructor
  · rintro ⟨o, hm, h⟩
    have hm := ((mem_own hat true o).mp hm).1
    simp only [Bool.and_eq_true, Bool.not_eq_true', decide_eq_true_eq, List.isEmpty_eq_false_iff] at h
    obtain ⟨s, hs'⟩ := List.exists_mem_of_ne_nil _ h.1
    have := (hs o hm s).mp hs'
    exact ⟨o, hm, h.2, s, this.1, this.2⟩
  · rintro ⟨o, hm, h, s, h1, h2⟩
    refine ⟨o, (mem_own hat true o).mpr ⟨hm, fun _ => (kind_args (hk o hm)).mp (h ▸ hkd)⟩, ?_⟩
    have := (hs o hm s).mpr ⟨h1, h2⟩
    simp only [Bool.and_eq_true, Bool.not_eq_true', decide_eq_true_eq, List.isEmpty_eq_false_iff]
    exact ⟨List.ne_nil_of_mem this, h⟩

omit ho hat hk in
theorem any_kind_required (l : List Opt) (strs : Opt → List Str) :
    l.any (fun o => !(strs o).isEmpty && !o.hasOptionalArg && o.hasRequiredArg) =
      l.any (fun o => !(strs o).isEmpty && decide (o.kind = .required)) := by
  congr 1; funext o
  unfold Opt.kind Opt.hasRequiredArg Opt.hasOptionalArg
  cases (strs o).isEmpty <;> cases o.complete.isSome <;> cases o.optionalArg <;> rfl

omit ho hat hk in
theorem any_kind_optional (l : List Opt) (strs : Opt → List Str) :
    l.any (fun o => !(strs o).isEmpty && o.hasOptionalArg) =
      l.any (fun o => !(strs o).isEmpty && decide (o.kind = .optional)) := by
  congr 1; funext o
  unfold Opt.kind Opt.hasRequiredArg Opt.hasOptionalArg
  cases (strs o).isEmpty <;> cases o.complete.isSome <;> cases o.optionalArg <;> rfl

theorem info_flags :
    ((infoOf parents c).shortRequired = true ↔ ∃ o ∈ c.data.options, o.kind = .required ∧ ∃ s ∈ o.strings, IsShort s) ∧
    ((infoOf parents c).shortOptional = true ↔ ∃ o ∈ c.data.options, o.kind = .optional ∧ ∃ s ∈ o.strings, IsShort s) ∧
    ((infoOf parents c).longRequired = true ↔ ∃ o ∈ c.data.options, o.kind = .required ∧ ∃ s ∈ o.strings, IsLong s) ∧
    ((infoOf parents c).longOptional = true ↔ ∃ o ∈ c.data.options, o.kind = .optional ∧ ∃ s ∈ o.strings, IsLong s) ∧
    ((infoOf parents c).oldRequired = true ↔ ∃ o ∈ c.data.options, o.kind = .required ∧ ∃ s ∈ o.strings, IsOld s) ∧
    ((infoOf parents c).oldOptional = true ↔ ∃ o ∈ c.data.options, o.kind = .optional ∧ ∃ s ∈ o.strings, IsOld s) := by
  have hs := fun o (hm : o ∈ c.data.options) s => optStrings_iff (ho.valid _ _ hat o hm) s
  simp only [infoOf, any_kind_required, any_kind_optional]
  refine ⟨?_, ?_, ?_, ?_, ?_, ?_⟩
  · exact info_any ho hat hk _ (by decide) _ _ (fun o hm s => (hs o hm s).1)
  · exact info_any ho hat hk _ (by decide) _ _ (fun o hm s => (hs o hm s).1)
  · exact info_any ho hat hk _ (by decide) _ _ (fun o hm s => (hs o hm s).2.1)
  · exact info_any ho hat hk _ (by decide) _ _ (fun o hm s => (hs o hm s).2.1)
  · exact info_any ho hat hk _ (by decide) _ _ (fun o hm s => (hs o hm s).2.2)
  · exact info_any ho hat hk _ (by decide) _ _ (fun o hm s => (hs o hm s).2.2)

omit ho hat hk in
/-- What option completion does if nothing fails. -/
theorem runOption_eq {E : BEnv} {ln : BLine} {r : List BEvent × Bool} (h : runOptionCompletion E ln parents c = .ok r) :
    r = if (ownArgs (E.optCode c) parents c).isEmpty then ([], false)
      else runDispatcher (infoOf parents c) (completeOption (E.holds c) (ownArgs (E.optCode c) parents c)) ln.prev ln.cur := by
  unfold runOptionCompletion at h
  cases h1 : mapE (argOpt (E.optCode c) parents c) (getOptions parents c false true) with
  | error x => rw [h1] at h; cases h
  | ok os =>
    rw [h1] at h
    have := (mapE_eq (fun x y => argOpt_eq) h1).1
    subst this
    simp only [bind, Except.bind] at h
    split at h
    · rename_i he
      rw [if_pos he]
      simpa using h.symm
    · rename_i he
      rw [if_neg he]
      cases h2 : dispatchInfo parents c with
      | error x => rw [h2] at h; cases h
      | ok i =>
        rw [h2] at h
        rw [← dispatchInfo_eq h2]
        simpa using h.symm

end

end CC
