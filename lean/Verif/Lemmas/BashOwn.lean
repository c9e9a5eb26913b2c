import Verif.Lemmas.BashDispatch
/-!
# The dispatcher of a command and the options of the specification
-/

namespace CC

/-- `argOpt` without the errors. -/
def argOf (code : Opt → Str) (parents : List Cmd) (c : Cmd) (o : Opt) : ArgOpt :=
  { strings := o.shortStrings ++ namesOf parents c o.longStrings ++ namesOf parents c o.oldStrings
    optional := o.hasOptionalArg, cond := o.when_, code := code o }

theorem argOpt_eq {code : Opt → Str} {parents : List Cmd} {c : Cmd} {o : Opt} {a : ArgOpt} (h : argOpt code parents c o = .ok a) :
    a = argOf code parents c o := by
  unfold argOpt at h
  cases h1 : optionNames parents c o.longStrings with
  | error x => rw [h1] at h; simp [bind, Except.bind] at h
  | ok l =>
    cases h2 : optionNames parents c o.oldStrings with
    | error x => rw [h1, h2] at h; simp [bind, Except.bind] at h
    | ok l2 =>
      rw [h1, h2] at h
      simp only [bind, Except.bind, Except.ok.injEq] at h
      rw [← h, optionNames_eq h1, optionNames_eq h2]; rfl

/-- `dispatchInfo` without the errors. -/
def infoOf (parents : List Cmd) (c : Cmd) : DispatchInfo :=
  let own := getOptions parents c false true
  let all := getOptions parents c (decide (c.data.inheritOptions = .val true)) false
  { shortRequired := own.any (fun o => !o.shortStrings.isEmpty && !o.hasOptionalArg && o.hasRequiredArg)
    shortOptional := own.any (fun o => !o.shortStrings.isEmpty && o.hasOptionalArg)
    longRequired := own.any (fun o => !o.longStrings.isEmpty && !o.hasOptionalArg && o.hasRequiredArg)
    longOptional := own.any (fun o => !o.longStrings.isEmpty && o.hasOptionalArg)
    oldRequired := own.any (fun o => !o.oldStrings.isEmpty && !o.hasOptionalArg && o.hasRequiredArg)
    oldOptional := own.any (fun o => !o.oldStrings.isEmpty && o.hasOptionalArg)
    oldStrings := namesOf parents c (all.flatMap (fun o => o.oldStrings))
    noArgs := shortLetters (all.filter (fun o => !o.hasRequiredArg && !o.hasOptionalArg && o.complete.isNone))
    requiredArgs := shortLetters (all.filter (fun o => o.hasRequiredArg))
    optionalArgs := shortLetters (all.filter (fun o => !o.hasRequiredArg && o.hasOptionalArg)) }

theorem dispatchInfo_eq {parents : List Cmd} {c : Cmd} {i : DispatchInfo} (h : dispatchInfo parents c = .ok i) :
    i = infoOf parents c := by
  unfold dispatchInfo at h
  cases h1 : optionNames parents c ((getOptions parents c (decide (c.data.inheritOptions = .val true)) false).flatMap (fun o => o.oldStrings)) with
  | error x => simp only [h1, bind, Except.bind] at h; cases h
  | ok l =>
    simp only [h1, bind, Except.bind, Except.ok.injEq] at h
    rw [← h, optionNames_eq h1]; rfl

theorem mem_own {root : Cmd} {parents : List Cmd} {c : Cmd} (hat : At root parents c) (onlyArgs : Bool) (o : Opt) :
    o ∈ getOptions parents c false onlyArgs ↔ o ∈ c.data.options ∧ (onlyArgs = true → truthyList o.complete = true) := by
  rw [C16_mem root parents c hat]
  unfold searched eligible
  simp only [Bool.false_eq_true, if_false]
  constructor
  · rintro ⟨pre, x, post, h1, h2, -⟩
    have : pre = [] ∧ x = c := by
      cases pre with
      | nil => simp at h1; exact ⟨rfl, h1.1.symm⟩
      | cons y ys => simp at h1
    obtain ⟨rfl, rfl⟩ := this
    have h2 := List.mem_filter.mp h2
    refine ⟨h2.1, fun h => ?_⟩
    simpa [h] using h2.2
  · rintro ⟨h1, h2⟩
    refine ⟨[], c, [], rfl, List.mem_filter.mpr ⟨h1, ?_⟩, by simp⟩
    cases onlyArgs with
    | false => rfl
    | true => simpa using h2 rfl

theorem kind_args {o : Opt} (h : o.complete ≠ some []) : o.kind ≠ .flag ↔ truthyList o.complete = true := by
  unfold Opt.kind Opt.hasRequiredArg Opt.hasOptionalArg
  cases hc : o.complete with
  | none => simp [truthyList]
  | some l =>
    cases l with
    | nil => exact absurd hc h
    | cons x l => cases o.optionalArg <;> simp [truthyList]

theorem kind_required {o : Opt} : o.kind = .required ↔ o.hasRequiredArg = true := by
  unfold Opt.kind
  cases h : o.hasRequiredArg with
  | true => simp
  | false => cases o.hasOptionalArg <;> simp

theorem kind_optional {o : Opt} : o.kind = .optional ↔ o.hasOptionalArg = true := by
  unfold Opt.kind Opt.hasRequiredArg Opt.hasOptionalArg
  cases o.complete.isSome <;> cases o.optionalArg <;> simp

theorem kind_flag {o : Opt} : o.kind = .flag ↔ o.complete = none := by
  unfold Opt.kind Opt.hasRequiredArg Opt.hasOptionalArg
  cases o.complete <;> cases o.optionalArg <;> simp

section
variable {root : Cmd} (ho : CleanOptions root) {parents : List Cmd} {c : Cmd} (hat : At root parents c) (hk : HasCompleters c)
include ho hat

theorem argOf_names {code : Opt → Str} {o : Opt} (hm : o ∈ c.data.options) (s : Str) :
    s ∈ (argOf code parents c o).strings ↔ NamesOption parents c s o := by
  rw [← boptOf_names ho (e := (parents, c)) hat hm s]
  simp only [argOf, boptOf, Bool.or_eq_true, List.contains_iff_mem, List.mem_append, or_assoc]

/-- The options with arguments of the command. -/
abbrev ownArgs (code : Opt → Str) (parents : List Cmd) (c : Cmd) : List ArgOpt :=
  (getOptions parents c false true).map (argOf code parents c)

theorem own_single (code : Opt → Str) : SingleStrings (ownArgs code parents c) := by
  intro a ha b hb s h1 h2
  obtain ⟨o, h, rfl⟩ := List.mem_map.mp ha
  obtain ⟨o', h', rfl⟩ := List.mem_map.mp hb
  have hm := ((mem_own hat true o).mp h).1
  have hm' := ((mem_own hat true o').mp h').1
  rw [ho.single _ _ hat s o o' ((argOf_names ho hat hm s).mp h1) ((argOf_names ho hat hm' s).mp h2)]

include hk

theorem mem_ownArgs {o : Opt} (hm : o ∈ c.data.options) (h : o.kind ≠ .flag) (code : Opt → Str) :
    argOf code parents c o ∈ ownArgs code parents c :=
  List.mem_map.mpr ⟨o, (mem_own hat true o).mpr ⟨hm, fun _ => (kind_args (hk o hm)).mp h⟩, rfl⟩

omit ho in
theorem own_notOnly (code : Opt → Str) (h : NotAllOptional c) : NotOnlyOptional (ownArgs code parents c) := by
  have hmem : ∀ o ∈ c.data.options, o.kind ≠ .flag → argOf code parents c o ∈ ownArgs code parents c := fun o hm h =>
    List.mem_map.mpr ⟨o, (mem_own hat true o).mpr ⟨hm, fun _ => (kind_args (hk o hm)).mp h⟩, rfl⟩
  rcases h with ⟨o, hm, h⟩ | ⟨o, hm, h, hw⟩
  · refine Or.inl ⟨_, hmem o hm (by rw [h]; decide), ?_⟩
    show o.hasOptionalArg = false
    cases h' : o.hasOptionalArg with
    | false => rfl
    | true => rw [kind_optional.mpr h'] at h; cases h
  · exact Or.inr ⟨_, hmem o hm h, hw⟩

theorem complete_own (E : BEnv) (hn : NotAllOptional c) {o : Opt} {s : Str} (h : NamesOption parents c s o) (hf : o.kind ≠ .flag)
    (hw : WhenMet E c o) {m : Bool} (hm : o.kind = .optional → m = true) :
    completeOption (E.holds c) (ownArgs (E.optCode c) parents c) s m = ([E.optCode c o], true) := by
  have := (completeOption_run (holds := E.holds c) (opt := s) (m := m) (own_single ho hat (E.optCode c)) (own_notOnly hat hk (E.optCode c) hn)).1
    _ (mem_ownArgs ho hat hk h.1 hf (E.optCode c)) ((argOf_names ho hat h.1 s).mpr h)
  exact this ⟨hw, fun h => hm (kind_optional.mpr h)⟩

theorem complete_none (E : BEnv) (hn : NotAllOptional c) {s : Str} {m : Bool}
    (h : ∀ o, NamesOption parents c s o → o.kind ≠ .flag → WhenMet E c o → o.kind = .optional ∧ m = false) :
    completeOption (E.holds c) (ownArgs (E.optCode c) parents c) s m = ([], false) := by
  refine (completeOption_run (own_single ho hat (E.optCode c)) (own_notOnly hat hk (E.optCode c) hn)).2 ?_
  intro a ha hs hu
  obtain ⟨o, hm, rfl⟩ := List.mem_map.mp ha
  have hm' := (mem_own hat true o).mp hm
  have := h o ((argOf_names ho hat hm'.1 s).mp hs) ((kind_args (hk o hm'.1)).mpr (hm'.2 rfl)) hu.1
  have h2 := hu.2 (kind_optional.mp this.1)
  rw [this.2] at h2; cases h2

end

end CC
