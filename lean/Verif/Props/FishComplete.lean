import Verif.Lemmas.FishEach
import Verif.Props.ZshComplete
/-!
# C86: what the completers do in Fish
-/

namespace CC
namespace FishReads
open FishCode FishCompleter

/-! ## Nothing is lost -/

/-- No function is lost, new names are names, and nothing is taken from the trace. -/
def FishKept (ctxt : FishCtxt) (st st' : FishState) : Prop :=
  (∀ e ∈ st.dyn, e ∈ st'.dyn) ∧ (NameOk ctxt.base → (∀ e ∈ st.dyn, NameOk e.2) → ∀ e ∈ st'.dyn, NameOk e.2) ∧
    ∀ p ∈ st.trace, p ∈ st'.trace

theorem FishKept.refl (ctxt : FishCtxt) (st : FishState) : FishKept ctxt st st := ⟨fun _ h => h, fun _ h => h, fun _ h => h⟩

theorem FishKept.trans {ctxt : FishCtxt} {a b c : FishState} (h1 : FishKept ctxt a b) (h2 : FishKept ctxt b c) : FishKept ctxt a c :=
  ⟨fun e he => h2.1 e (h1.1 e he), fun hb hd => h2.2.1 hb (h1.2.1 hb hd), fun e he => h2.2.2 e (h1.2.2 e he)⟩

/-- What is known of a changed dictionary. -/
def DynKept (ctxt : FishCtxt) (dyn dyn' : Dyn) : Prop :=
  (∀ e ∈ dyn, e ∈ dyn') ∧ (NameOk ctxt.base → (∀ e ∈ dyn, NameOk e.2) → ∀ e ∈ dyn', NameOk e.2)

theorem DynKept.refl (ctxt : FishCtxt) (dyn : Dyn) : DynKept ctxt dyn dyn := ⟨fun _ h => h, fun _ h => h⟩

theorem dynKept_add {ctxt : FishCtxt} {code : Str} {dyn : Dyn} {r : Str × Dyn} (h : addDynFunc ctxt.base code dyn = .ok r) :
    DynKept ctxt dyn r.2 := ⟨(addDynFunc_spec h).1, fun hb hd => (addDynFunc_named hb hd h).2⟩

theorem fishFunction_kept {ctxt : FishCtxt} {dyn : Dyn} {o : FishObj} {r : Str × Dyn} (h : o.getFunction ctxt dyn = .ok r) :
    DynKept ctxt dyn r.2 := by
  unfold FishObj.getFunction at h
  split at h
  · cases h; exact DynKept.refl _ _
  · cases h; exact DynKept.refl _ _
  · cases h; exact DynKept.refl _ _
  · exact dynKept_add h

theorem runDynArgs_kept {ctxt : FishCtxt} {code : Str} {dyn : Dyn} {r : List Str × Dyn} (h : runDynArgs ctxt code dyn = .ok r) :
    DynKept ctxt dyn r.2 := by
  unfold runDynArgs at h
  obtain ⟨g, hg, h⟩ := ok_bind h
  cases h
  exact dynKept_add hg

theorem fishArgs_kept {ctxt : FishCtxt} {dyn : Dyn} {o : FishObj} {r : List Str × Dyn} (h : o.getArgs ctxt dyn = .ok r) :
    DynKept ctxt dyn r.2 := by
  unfold FishObj.getArgs at h
  split at h
  · cases h; exact DynKept.refl _ _
  · cases h; exact DynKept.refl _ _
  · cases h; exact DynKept.refl _ _
  · split at h
    · cases h; exact DynKept.refl _ _
    · exact runDynArgs_kept h
  · split at h <;> cases h <;> exact DynKept.refl _ _
  · split at h
    · exact runDynArgs_kept h
    · cases h; exact DynKept.refl _ _
  · split at h
    · cases h; exact DynKept.refl _ _
    · exact runDynArgs_kept h
  · exact runDynArgs_kept h

theorem DynKept.state {ctxt : FishCtxt} {st : FishState} {dyn : Dyn} (h : DynKept ctxt st.dyn dyn) (t : List Str) :
    FishKept ctxt st ⟨st.trace ++ t, dyn⟩ := ⟨h.1, h.2, fun p hp => List.mem_append_left _ hp⟩

theorem DynKept.state' {ctxt : FishCtxt} {st : FishState} {dyn : Dyn} (h : DynKept ctxt st.dyn dyn) :
    FishKept ctxt st ⟨st.trace, dyn⟩ := ⟨h.1, h.2, fun p hp => hp⟩

theorem fishDynCommand_kept {ctxt : FishCtxt} {code : Str} {st : FishState} {r : FishObj × FishState}
    (h : fishDynCommand ctxt code st = .ok r) : FishKept ctxt st r.2 := by
  unfold fishDynCommand at h
  obtain ⟨g, hg, h⟩ := ok_bind h
  cases h
  exact (dynKept_add hg).state'

mutual
theorem fish_kept (ctxt : FishCtxt) : ∀ (c : Comp) (st : FishState) (r : FishObj × FishState),
    fishCompleter ctxt c st = .ok r → FishKept ctxt st r.2
  | .combine cs, st, r, h => by
    simp only [fishCompleter] at h
    obtain ⟨x, hx, h⟩ := ok_bind h
    cases h
    exact ((DynKept.refl ctxt st.dyn).state _).trans (fish_kept_all ctxt cs _ x hx)
  | .list c o, st, r, h => by
    simp only [fishCompleter] at h
    obtain ⟨x, hx, h⟩ := ok_bind h
    obtain ⟨g, hg, h⟩ := ok_bind h
    obtain ⟨l, hl, h⟩ := ok_bind h
    cases h
    exact (((DynKept.refl ctxt st.dyn).state _).trans (fish_kept ctxt c _ x hx)).trans (fishFunction_kept hg).state'
  | .prefix p c, st, r, h => by
    simp only [fishCompleter] at h
    obtain ⟨x, hx, h⟩ := ok_bind h
    obtain ⟨g, hg, h⟩ := ok_bind h
    obtain ⟨l, hl, h⟩ := ok_bind h
    cases h
    exact (fish_kept ctxt c _ x hx).trans (fishFunction_kept hg).state'
  | .keyValueList ps vs ks cond, st, r, h => by
    simp only [fishCompleter] at h
    obtain ⟨x, hx, h⟩ := ok_bind h
    obtain ⟨f, hf, h⟩ := ok_bind h
    exact (((DynKept.refl ctxt st.dyn).state _).trans (fish_kept_keys ctxt true cond ks _ x hx)).trans (fishDynCommand_kept h)
  | .keyValuePair vs ks cond, st, r, h => by
    simp only [fishCompleter] at h
    obtain ⟨x, hx, h⟩ := ok_bind h
    obtain ⟨f, hf, h⟩ := ok_bind h
    exact (((DynKept.refl ctxt st.dyn).state _).trans (fish_kept_keys ctxt false cond ks _ x hx)).trans (fishDynCommand_kept h)
  | .valueList v o, st, r, h => by
    simp only [fishCompleter, fishValueList] at h
    obtain ⟨x, hx, h⟩ := ok_bind h
    obtain ⟨g, hg, hx⟩ := ok_bind hx
    cases h
    split at hx
    · cases hx; exact (dynKept_add hg).state'
    · obtain ⟨o, ho, hx⟩ := ok_bind hx
      cases hx; exact (dynKept_add hg).state'
  | .directoryList d l, st, r, h => by
    simp only [fishCompleter] at h
    obtain ⟨x, hx, h⟩ := ok_bind h
    obtain ⟨g, hg, h⟩ := ok_bind h
    obtain ⟨l, hl, h⟩ := ok_bind h
    cases h
    exact (fishFunction_kept hg).state _
  | .fileList d l, st, r, h => by
    simp only [fishCompleter] at h
    obtain ⟨x, hx, h⟩ := ok_bind h
    obtain ⟨g, hg, h⟩ := ok_bind h
    obtain ⟨l, hl, h⟩ := ok_bind h
    cases h
    exact (fishFunction_kept hg).state _
  | .void n, st, r, h => by
    simp only [fishCompleter] at h; obtain ⟨x, hx, h⟩ := ok_bind h; cases h; exact FishKept.refl _ _
  | .none, st, r, h => by simp only [fishCompleter] at h; cases h; exact FishKept.refl _ _
  | .commandArg, st, r, h => by
    simp only [fishCompleter] at h; obtain ⟨x, hx, h⟩ := ok_bind h; cases h; exact FishKept.refl _ _
  | .date f, st, r, h => by simp only [fishCompleter] at h; cases h; exact FishKept.refl _ _
  | .choices c, st, r, h => by simp only [fishCompleter] at h; cases h; exact FishKept.refl _ _
  | .command p a b, st, r, h => by simp only [fishCompleter] at h; cases h; exact FishKept.refl _ _
  | .directory d, st, r, h => by
    simp only [fishCompleter] at h; obtain ⟨x, hx, h⟩ := ok_bind h; cases h; exact FishKept.refl _ _
  | .file o, st, r, h => by
    simp only [fishCompleter] at h; obtain ⟨x, hx, h⟩ := ok_bind h; cases h; exact FishKept.refl _ _
  | .exec c, st, r, h => by simp only [fishCompleter] at h; cases h; exact FishKept.refl _ _
  | .execFast c, st, r, h => by simp only [fishCompleter] at h; cases h; exact FishKept.refl _ _
  | .execInternal c, st, r, h => by simp only [fishCompleter] at h; cases h; exact FishKept.refl _ _
  | .integer o, st, r, h => by
    simp only [fishCompleter] at h; obtain ⟨x, hx, h⟩ := ok_bind h; cases h; exact FishKept.refl _ _
  | .float o, st, r, h => by
    simp only [fishCompleter] at h; obtain ⟨x, hx, h⟩ := ok_bind h; cases h; exact FishKept.refl _ _
  | .history p, st, r, h => by
    simp only [fishCompleter] at h; obtain ⟨x, hx, h⟩ := ok_bind h; cases h; exact FishKept.refl _ _
  | .mimeFile p, st, r, h => by
    simp only [fishCompleter] at h; obtain ⟨x, hx, h⟩ := ok_bind h; cases h; exact FishKept.refl _ _
  | .ipAddress t, st, r, h => by simp only [fishCompleter] at h; cases h; exact FishKept.refl _ _
  | .keyValueListExec p v c, st, r, h => by
    simp only [fishCompleter] at h; obtain ⟨x, hx, h⟩ := ok_bind h; cases h; exact FishKept.refl _ _
  | .keyValuePairExec v c, st, r, h => by
    simp only [fishCompleter] at h; obtain ⟨x, hx, h⟩ := ok_bind h; cases h; exact FishKept.refl _ _
  | .range a b s, st, r, h => by simp only [fishCompleter] at h; cases h; exact FishKept.refl _ _
theorem fish_kept_all (ctxt : FishCtxt) : ∀ (cs : Comps) (st : FishState) (r : List Str × FishState),
    fishCompleters ctxt cs st = .ok r → FishKept ctxt st r.2
  | .nil, st, r, h => by simp only [fishCompleters] at h; cases h; exact FishKept.refl _ _
  | .cons c cs, st, r, h => by
    simp only [fishCompleters] at h
    obtain ⟨x, hx, h⟩ := ok_bind h
    obtain ⟨y, hy, h⟩ := ok_bind h
    cases h
    exact (fish_kept ctxt c st x hx).trans (fish_kept_all ctxt cs _ y hy)
theorem fish_kept_keys (ctxt : FishCtxt) (isList : Bool) (cond : Option Str) : ∀ (ks : KeyDefList) (st : FishState)
    (r : List Str × FishState), fishKeyDefs ctxt isList cond ks st = .ok r → FishKept ctxt st r.2
  | .nil, st, r, h => by simp only [fishKeyDefs] at h; cases h; exact FishKept.refl _ _
  | .bare k d ex ks, st, r, h => by
    simp only [fishKeyDefs] at h
    obtain ⟨y, hy, h⟩ := ok_bind h
    cases h
    exact fish_kept_keys ctxt isList cond ks _ y hy
  | .cons k d ex c ks, st, r, h => by
    rw [fishKeyDefs.eq_def] at h
    split at h
    · simp at *
    · simp at *
    · rename_i e
      cases e
      obtain ⟨y, hy, h⟩ := ok_bind h
      cases h
      exact fish_kept_keys ctxt isList cond ks _ y hy
    · rename_i e
      cases e
      obtain ⟨x, hx, h⟩ := ok_bind h
      obtain ⟨a, ha, h⟩ := ok_bind h
      obtain ⟨y, hy, h⟩ := ok_bind h
      cases h
      exact ((fish_kept ctxt _ _ x hx).trans (fishFunction_kept ha).state').trans (fish_kept_keys ctxt isList cond ks _ y hy)
end

/-! ## Functions and arguments of objects -/

theorem name_readable {g : Str} (h : NameOk g) : fishReadable g = true := readable_safe h.2.2

theorem name_read {g : Str} (h : NameOk g) : FishCode.read g = some [call [g]] := by
  have := (stmts_call (ws := [g]) (by simp) (by simpa using name_readable h)).read
  simpa [joinQuoted, joinWith, h.quote] using this

theorem function_of_good {s : Setting} {ctxt : FishCtxt} (hb : NameOk ctxt.base) {inner : Bool} {c : Comp} {o : FishObj}
    (G : FishGood s ctxt inner c o) {dyn : Dyn} (hd : ∀ e ∈ dyn, NameOk e.2) {r : Str × Dyn} (h : o.getFunction ctxt dyn = .ok r)
    (hF : ∀ e ∈ r.2, e ∈ s.functions) : fishReadable r.1 = true ∧ Via s inner c r.1 := by
  unfold FishObj.getFunction at h
  split at h
  · cases h; exact ⟨show fishReadable (S "true") = true by decide, Or.inl (G.nothing rfl)⟩
  · cases h; exact ⟨(G.command _ rfl).1, Or.inl (G.command _ rfl).2⟩
  · cases h; exact ⟨(G.file _ rfl).1, Or.inl (G.file _ rfl).2.1⟩
  · obtain ⟨ss, h1, h2⟩ := G.code
    exact ⟨name_readable (addDynFunc_named hb hd h).1, Or.inr ⟨ss, ⟨_, hF _ (addDynFunc_spec h).2, h1⟩, h2⟩⟩

theorem args_function {s : Setting} {ctxt : FishCtxt} (hb : NameOk ctxt.base) {c : Comp} {code : Str}
    (hc : ∃ ss, FishCode.read code = some ss ∧ Does s false c ss) {dyn : Dyn} (hd : ∀ e ∈ dyn, NameOk e.2) {r : List Str × Dyn}
    (h : runDynArgs ctxt code dyn = .ok r) (hF : ∀ e ∈ r.2, e ∈ s.functions) : Args s c r.1 := by
  unfold runDynArgs at h
  obtain ⟨g, hg, h⟩ := ok_bind h
  cases h
  obtain ⟨ss, h1, h2⟩ := hc
  exact .function (name_read (addDynFunc_named hb hd hg).1) (Or.inr ⟨ss, ⟨_, hF _ (addDynFunc_spec hg).2, h1⟩, h2⟩)

theorem args_run {s : Setting} {c : Comp} {code : Str} (hc : ∃ ss, FishCode.read code = some ss ∧ Does s false c ss) :
    Args s c (runArgs code) := by
  obtain ⟨ss, h1, h2⟩ := hc
  exact .run h1 h2

/-- What is known of the codes of a combination. -/
def GoodCodes (s : Setting) (inner : Bool) (c : Comp) (o : FishObj) : Prop :=
  ∀ codes, o = .combine codes → ∃ sss, All2 Stmts codes sss ∧ Does s inner c sss.flatten

theorem args_of_good {s : Setting} {ctxt : FishCtxt} (hb : NameOk ctxt.base) {c : Comp} {o : FishObj}
    (G : FishGood s ctxt false c o) (C : GoodCodes s false c o) {dyn : Dyn} (hd : ∀ e ∈ dyn, NameOk e.2) {r : List Str × Dyn}
    (h : o.getArgs ctxt dyn = .ok r) (hF : ∀ e ∈ r.2, e ∈ s.functions) : Args s c r.1 := by
  have hcode := G.code
  cases o with
  | nothing =>
    cases h
    obtain ⟨ss, h1, h2⟩ := hcode
    have : ss = [] := by simpa using h1.symm.trans (show FishCode.read [] = some [] from rfl)
    subst this
    exact .nothing h2
  | command args => cases h; exact args_run hcode
  | raw t => cases h; exact args_run hcode
  | choices ch =>
    obtain ⟨h1, h2, h3, h4⟩ := G.choices ch rfl
    simp only [FishObj.getArgs] at h
    split at h
    · rename_i a ha
      cases h
      unfold fishChoices at ha
      split at ha
      · cases ha
        exact .words h1 (C63_fish_inline_partial ch h2 h4)
      · cases ha
    · rename_i code ha
      unfold fishChoices at ha
      split at ha
      · cases ha
      · cases ha
        exact args_function hb hcode hd h hF
  | file f args =>
    simp only [FishObj.getArgs] at h
    split at h
    · rename_i ha
      cases h
      have : args = [] := by simpa using ha
      subst this
      obtain ⟨_, _, p, h1, h2, h3, h4⟩ := G.file f rfl
      exact .files h1 h2 h3 h4
    · cases h; exact args_run hcode
  | path t =>
    simp only [FishObj.getArgs] at h
    split at h
    · exact args_function hb hcode hd h hF
    · cases h; exact args_run hcode
  | combine codes =>
    simp only [FishObj.getArgs] at h
    split at h
    · cases h
      obtain ⟨sss, h1, h2⟩ := C codes rfl
      exact args_run ⟨_, (stmts_joined_semicolons h1).read, h2⟩
    · exact args_function hb hcode hd h hF
  | commandArg t => exact args_function hb hcode hd h hF

theorem call_inj {a b : List Str} (h : call a = call b) : a = b := by
  unfold call at h
  have hl : ∀ x y : Str, lit x = lit y → x = y := by
    intro x y hxy
    simp only [lit, Tok.word.injEq] at hxy
    have : ∀ (x y : Str), x.map Seg.ch = y.map Seg.ch → x = y := by
      intro x
      induction x with
      | nil => intro y h; cases y <;> simp_all
      | cons a x ih =>
        intro y h
        cases y with
        | nil => simp at h
        | cons b y =>
          simp only [List.map_cons, List.cons.injEq, Seg.ch.injEq] at h
          rw [h.1, ih y h.2]
    exact this x y hxy
  induction a generalizing b with
  | nil => cases b <;> simp_all
  | cons x xs ih =>
    cases b with
    | nil => simp at h
    | cons y ys =>
      simp only [List.map_cons, List.cons.injEq] at h
      rw [hl x y h.1, ih h.2]

/-! ## Every completer -/

/-- The place is one where a part of the word is removed. -/
def Stripping (trace : List Str) : Prop := strippingPlaces.any (fun p => trace.contains p) = true

theorem stripping_of {t : List Str} {p : Str} (hp : p ∈ strippingPlaces) (h : p ∈ t) : Stripping t := by
  unfold Stripping
  rw [List.any_eq_true]
  exact ⟨p, hp, by simpa using h⟩

theorem Stripping.mono {t t' : List Str} (h : Stripping t) (hs : ∀ p ∈ t, p ∈ t') : Stripping t' := by
  unfold Stripping at h
  rw [List.any_eq_true] at h
  obtain ⟨p, hp, hc⟩ := h
  exact stripping_of hp (hs p (by simpa using hc))

theorem good_list {s : Setting} {ctxt : FishCtxt} (R : FishReady s ctxt) {inner : Bool} {c : Comp} {o : SepOpts} {g : Str}
    (ho : fishReadable o.separator = true) (hg : fishReadable g = true) {obj : FishObj} (h : fishListObj ctxt o g = .ok obj)
    (hd : Does s inner c [call (listWords s o g)]) : FishGood s ctxt inner c obj ∧ GoodCodes s inner c obj := by
  unfold fishListObj at h
  have G : FishGood s ctxt inner c obj := by
    refine good_helper_call R h (by decide) ?_ ?_
    · intro w hw
      simp only [List.mem_append, List.mem_cons, List.not_mem_nil, or_false] at hw
      rcases hw with hw | rfl | rfl
      · split at hw
        · simp at hw; subst hw; decide
        · simp at hw
      · exact ho
      · exact hg
    · have e : FishCompleter.helper s "list" :: ((if o.duplicates = true then [S "-d"] else []) ++ [o.separator, g]) = listWords s o g := by
        simp [listWords, S]
      rw [e]; exact hd
  refine ⟨G, ?_⟩
  unfold fishHelper at h
  obtain ⟨f, hf, h⟩ := ok_bind h
  cases h
  intro codes hc; cases hc

theorem codes_helper {s : Setting} {ctxt : FishCtxt} {inner : Bool} {c : Comp} {name : String} {args : List Str} {o : FishObj}
    (h : fishHelper ctxt name args = .ok o) : GoodCodes s inner c o := by
  unfold fishHelper at h
  obtain ⟨f, hf, h⟩ := ok_bind h
  cases h
  intro codes hc; cases hc

theorem codes_number {s : Setting} {ctxt : FishCtxt} {inner : Bool} {c : Comp} {n : NumOpts} {o : FishObj}
    (h : fishNumber ctxt n = .ok o) : GoodCodes s inner c o := by
  unfold fishNumber at h
  split at h
  · cases h; intro codes hc; cases hc
  · exact codes_helper h

theorem codes_file {s : Setting} {ctxt : FishCtxt} {inner : Bool} {c : Comp} {n : FileOpts} {o : FishObj}
    (h : fishFile ctxt n = .ok o) : GoodCodes s inner c o := by
  unfold fishFile at h
  obtain ⟨f, hf, h⟩ := ok_bind h
  obtain ⟨gs, hg, h⟩ := ok_bind h
  cases h
  intro codes hc; cases hc

theorem codes_void {s : Setting} {ctxt : FishCtxt} {inner : Bool} {c : Comp} {n : Str} (hn : n ∈ voidNames) {o : FishObj}
    (h : fishVoid ctxt n = .ok o) : GoodCodes s inner c o := by
  intro codes hc
  subst hc
  rcases fishVoid_known n hn with hm | hm | rfl
  · obtain ⟨e, he, rfl⟩ := List.mem_map.mp hm
    rcases fishVoid_library ctxt e he with h1 | ⟨t, h1, h2⟩ <;> rw [h1] at h <;> cases h
  · obtain ⟨e, he, rfl⟩ := List.mem_map.mp hm
    rw [fishVoid_helpers ctxt e he] at h; cases h
  · rw [show fishVoid ctxt "signal".toList = .ok (.choices (.table signalTable)) from rfl] at h
    cases h

theorem codes_ip {s : Setting} {inner : Bool} {c : Comp} (t : Str) : GoodCodes s inner c (fishIpAddress t) := by
  intro codes hc
  unfold fishIpAddress at hc
  repeat' split at hc
  all_goals cases hc

theorem codes_range {s : Setting} {inner : Bool} {c : Comp} (a b st : Int) : GoodCodes s inner c (fishRange a b st) := by
  intro codes hc
  unfold fishRange at hc
  split at hc <;> cases hc

theorem good_own {s : Setting} {ctxt : FishCtxt} (R : FishReady s ctxt) {inner : Bool} {c : Comp} {name : String}
    {args : List Str} {o : FishObj} (h : fishHelper ctxt name args = .ok o) (hn : ∀ c ∈ name.toList, isSafeChar c = true)
    (hw : ∀ w ∈ args, fishReadable w = true) (hd : Does s inner c [call (FishCompleter.helper s name :: args)]) :
    FishGood s ctxt inner c o ∧ GoodCodes s inner c o := ⟨good_helper_call R h hn hw hd, codes_helper h⟩

/-- A function that is called by its name. -/
theorem good_name {s : Setting} {ctxt : FishCtxt} {inner : Bool} {c : Comp} {g : Str} (hg : NameOk g) (hd : Does s inner c [call [g]]) :
    FishGood s ctxt inner c (.command [g]) ∧ GoodCodes s inner c (.command [g]) :=
  ⟨good_call (by simp) (by simpa using name_readable hg) hd, fun _ hc => by cases hc⟩

theorem helper_words {s : Setting} {ctxt : FishCtxt} (R : FishReady s ctxt) (name : String) (hn : ∀ c ∈ name.toList, isSafeChar c = true)
    (hne : name.toList ≠ []) : Words (realName ctxt.pre name.toList) (call [FishCompleter.helper s name]) := by
  rw [helper_name, R.pre]
  refine words_safe _ ?_ (realName_safe R.safe _ hn)
  simp [realName, hne]

mutual
theorem fish_good {s : Setting} {ctxt : FishCtxt} (R : FishReady s ctxt) : ∀ (c : Comp) (inList inner : Bool), Fits inList c →
    ∀ (st : FishState), (∀ e ∈ st.dyn, NameOk e.2) → (inList = true → Stripping st.trace) →
    (inner = true → inList = true ∨ plainDirectory c = false) →
    ∀ (r : FishObj × FishState), fishCompleter ctxt c st = .ok r → (∀ e ∈ r.2.dyn, e ∈ s.functions) →
      FishGood s ctxt inner c r.1 ∧ GoodCodes s inner c r.1
  | .combine cs, inList, inner, hf, st, hd, hs, hi, r, h, hF => by
    simp only [fishCompleter] at h
    obtain ⟨x, hx, h⟩ := ok_bind h
    cases h
    simp only [Fits] at hf
    obtain ⟨sss, h1, h2⟩ := fish_good_all R cs inList inner hf ⟨st.trace ++ [S "combine"], st.dyn⟩ hd
      (fun hl => (hs hl).mono (fun p hp => List.mem_append_left _ hp)) hi x hx hF
    refine ⟨⟨⟨sss.flatten, (stmts_joined_lines h1).read, by simp only [Does]; exact h2⟩, by simp, by simp, by simp, by simp⟩, ?_⟩
    intro codes hc
    cases hc
    exact ⟨sss, h1, by simp only [Does]; exact h2⟩
  | .list c o, inList, inner, hf, st, hd, hs, hi, r, h, hF => by
    simp only [fishCompleter] at h
    obtain ⟨x, hx, h⟩ := ok_bind h
    obtain ⟨g, hg, h⟩ := ok_bind h
    obtain ⟨l, hl, h⟩ := ok_bind h
    cases h
    simp only [Fits] at hf
    have hk := fishFunction_kept hg
    have G := fish_good R c true true hf.1 ⟨st.trace ++ [S "list"], st.dyn⟩ hd
      (fun _ => stripping_of (p := S "list") (by decide) (by simp)) (fun _ => Or.inl rfl) x hx (fun e he => hF e (hk.1 e he))
    have hv := function_of_good R.named G.1 ((fish_kept ctxt c _ x hx).2.1 R.named hd) hg hF
    refine good_list R hf.2 hv.1 hl ?_
    simp only [Does]
    exact ⟨g.1, hv.2, rfl⟩
  | .prefix p c, inList, inner, hf, st, hd, hs, hi, r, h, hF => by
    simp only [fishCompleter] at h
    obtain ⟨x, hx, h⟩ := ok_bind h
    obtain ⟨g, hg, h⟩ := ok_bind h
    obtain ⟨l, hl, h⟩ := ok_bind h
    cases h
    simp only [Fits] at hf
    have hk := fishFunction_kept hg
    have G := fish_good R c inList true hf.1 st hd hs (fun _ => hf.2.2) x hx (fun e he => hF e (hk.1 e he))
    have hv := function_of_good R.named G.1 ((fish_kept ctxt c _ x hx).2.1 R.named hd) hg hF
    refine good_own R hl (by decide) ?_ ?_
    · intro w hw
      simp at hw
      rcases hw with rfl | rfl
      · exact hf.2.1
      · exact hv.1
    · simp only [Does]
      exact ⟨g.1, hv.2, rfl⟩
  | .keyValueList ps vs ks cond, inList, inner, hf, st, hd, hs, hi, r, h, hF => by
    simp only [fishCompleter] at h
    obtain ⟨x, hx, h⟩ := ok_bind h
    obtain ⟨f, hu, h⟩ := ok_bind h
    have hk := fishDynCommand_kept h
    unfold fishDynCommand at h
    obtain ⟨g, hg, h⟩ := ok_bind h
    cases h
    simp only [Fits] at hf
    obtain ⟨sss, h1, h2⟩ := fish_good_keys R true cond ks (Or.inl rfl) hf.1 ⟨st.trace ++ [S "key_value_list"], st.dyn⟩ hd
      (stripping_of (p := S "key_value_list") (by decide) (by simp)) x hx (fun e he => hF e (hk.1 e he))
    have hN := addDynFunc_named R.named ((fish_kept_keys ctxt true cond ks _ x hx).2.1 R.named hd) hg
    refine good_name hN.1 ?_
    simp only [Does]
    refine ⟨g.1, sss.flatten, h2, ⟨_, hF _ (addDynFunc_spec hg).2, ?_⟩, rfl⟩
    refine (stmts_keyCode cond (fun w hw => hf.2 w (by simp at hw ⊢; exact Or.inr (Or.inr hw))) h1 ?_).read
    rw [used_fish hu]
    have := words_space (words_space (helper_words R "key_value_list" (by decide) (by decide)) (words_quote ps (hf.2 ps (by simp))))
      (words_quote vs (hf.2 vs (by simp)))
    simpa [S, call] using this
  | .keyValuePair vs ks cond, inList, inner, hf, st, hd, hs, hi, r, h, hF => by
    simp only [fishCompleter] at h
    obtain ⟨x, hx, h⟩ := ok_bind h
    obtain ⟨f, hu, h⟩ := ok_bind h
    have hk := fishDynCommand_kept h
    unfold fishDynCommand at h
    obtain ⟨g, hg, h⟩ := ok_bind h
    cases h
    simp only [Fits] at hf
    obtain ⟨sss, h1, h2⟩ := fish_good_keys R false cond ks (Or.inr hf.2.2) hf.1 ⟨st.trace ++ [S "key_value_pair"], st.dyn⟩ hd
      (stripping_of (p := S "key_value_pair") (by decide) (by simp)) x hx (fun e he => hF e (hk.1 e he))
    have hN := addDynFunc_named R.named ((fish_kept_keys ctxt false cond ks _ x hx).2.1 R.named hd) hg
    refine good_name hN.1 ?_
    simp only [Does]
    refine ⟨g.1, sss.flatten, h2, ⟨_, hF _ (addDynFunc_spec hg).2, ?_⟩, rfl⟩
    refine (stmts_keyCode cond (by rw [hf.2.2]; simp) h1 ?_).read
    rw [used_fish hu]
    have := words_space (helper_words R "key_value_pair" (by decide) (by decide)) (words_quote vs hf.2.1)
    simpa [S, call] using this
  | .void n, inList, inner, hf, st, hd, hs, hi, r, h, hF => by
    simp only [fishCompleter] at h
    obtain ⟨o, ho, h⟩ := ok_bind h
    cases h
    simp only [Fits, FitsHere] at hf
    exact ⟨good_void R hf.1 ho, codes_void hf.1 ho⟩
  | .none, inList, inner, hf, st, hd, hs, hi, r, h, hF => by
    simp only [fishCompleter] at h; cases h
    exact ⟨good_nothing (by simp [Does]) (by simp [Does]), fun _ hc => by cases hc⟩
  | .commandArg, inList, inner, hf, st, hd, hs, hi, r, h, hF => by
    simp only [fishCompleter] at h
    obtain ⟨o, ho, h⟩ := ok_bind h
    cases h
    rw [used_fish ho]
    refine ⟨⟨⟨_, (commandArg_code R).read, by simp only [Does]⟩, by simp, by simp, by simp, by simp⟩, fun _ hc => by cases hc⟩
  | .date f, inList, inner, hf, st, hd, hs, hi, r, h, hF => by
    simp only [Fits, FitsHere] at hf
    exact hf.1.elim
  | .choices c, inList, inner, hf, st, hd, hs, hi, r, h, hF => by
    simp only [fishCompleter] at h; cases h
    simp only [Fits, FitsHere] at hf
    exact ⟨good_choices hf.1.1 hf.1.2.1 hf.1.2.2 rfl (fun ss h => by simp only [Does]; exact h), fun _ hc => by cases hc⟩
  | .command p a b, inList, inner, hf, st, hd, hs, hi, r, h, hF => by
    simp only [fishCompleter] at h; cases h
    simp only [Fits, FitsHere] at hf
    refine ⟨⟨⟨_, (command_code hf.1.1 hf.1.2.1 hf.1.2.2 hf.2).read, by simp only [Does]⟩, by simp, by simp, by simp, by simp⟩,
      fun _ hc => by cases hc⟩
  | .directory d, inList, inner, hf, st, hd, hs, hi, r, h, hF => by
    simp only [fishCompleter] at h
    obtain ⟨o, ho, h⟩ := ok_bind h
    cases h
    simp only [Fits] at hf
    obtain ⟨ws, rfl, h1, h2, h3⟩ := directory_object R (inner := inner) (by
      intro hin
      rcases hi hin with hl | hp
      · exact Or.inl (hs hl)
      · right; rintro rfl; simp [plainDirectory] at hp) hf.2 ho
    exact ⟨good_call h2 h3 (by simp only [Does]; exact ⟨ws, h1, rfl⟩), fun _ hc => by cases hc⟩
  | .file o, inList, inner, hf, st, hd, hs, hi, r, h, hF => by
    simp only [fishCompleter] at h
    obtain ⟨x, hx, h⟩ := ok_bind h
    cases h
    simp only [Fits, FitsHere] at hf
    exact ⟨good_file R hf.1.1 hf.1.2 hf.2 hx, codes_file hx⟩
  | .directoryList d l, inList, inner, hf, st, hd, hs, hi, r, h, hF => by
    simp only [fishCompleter] at h
    obtain ⟨o, ho, h⟩ := ok_bind h
    obtain ⟨g, hg, h⟩ := ok_bind h
    obtain ⟨l', hl, h⟩ := ok_bind h
    cases h
    simp only [Fits] at hf
    obtain ⟨ws, rfl, h1, h2, h3⟩ := directory_object R (inner := true)
      (fun _ => Or.inl (stripping_of (p := S "list") (by decide) (by simp)))
      (fun w hw => hf.2 w (by simp only [ownWords, List.mem_append]; exact Or.inl hw)) ho
    have G : FishGood s ctxt true (.directory d) (.command ws) := good_call h2 h3 (by simp only [Does]; exact ⟨ws, h1, rfl⟩)
    have hv := function_of_good R.named G hd hg hF
    refine good_list R (hf.2 _ (by simp [ownWords])) hv.1 hl ?_
    simp only [Does]
    rcases hv.2 with h4 | ⟨ss, h4, h5⟩
    · simp only [Does] at h4
      obtain ⟨ws', h6, h7⟩ := h4
      simp only [List.cons.injEq, and_true] at h7
      exact ⟨g.1, ws', h6, Or.inl (call_inj h7).symm, rfl⟩
    · simp only [Does] at h5
      obtain ⟨ws', h6, h7⟩ := h5
      exact ⟨g.1, ws', h6, Or.inr (h7 ▸ h4), rfl⟩
  | .fileList o l, inList, inner, hf, st, hd, hs, hi, r, h, hF => by
    simp only [fishCompleter] at h
    obtain ⟨x, ho, h⟩ := ok_bind h
    obtain ⟨g, hg, h⟩ := ok_bind h
    obtain ⟨l', hl, h⟩ := ok_bind h
    cases h
    simp only [Fits, FitsHere] at hf
    have G : FishGood s ctxt true (.file o) x := good_file R hf.1.1 hf.1.2
      (fun w hw => hf.2 w (by simp only [ownWords, List.mem_append]; exact Or.inl hw)) ho
    have hv := function_of_good R.named G hd hg hF
    refine good_list R (hf.2 _ (by simp [ownWords])) hv.1 hl ?_
    simp only [Does]
    rcases hv.2 with h4 | ⟨ss, h4, h5⟩
    · simp only [Does] at h4
      obtain ⟨ws', h6, h7⟩ := h4
      simp only [List.cons.injEq, and_true] at h7
      exact ⟨g.1, ws', h6, Or.inl (call_inj h7).symm, rfl⟩
    · simp only [Does] at h5
      obtain ⟨ws', h6, h7⟩ := h5
      exact ⟨g.1, ws', h6, Or.inr (h7 ▸ h4), rfl⟩
  | .exec c, inList, inner, hf, st, hd, hs, hi, r, h, hF => by
    simp only [fishCompleter] at h; cases h
    simp only [Fits, FitsHere] at hf
    obtain ⟨ss, hr⟩ := hf.1
    exact ⟨good_raw hr (by simp only [Does]; exact hr), fun _ hc => by cases hc⟩
  | .execFast c, inList, inner, hf, st, hd, hs, hi, r, h, hF => by
    simp only [fishCompleter] at h; cases h
    simp only [Fits, FitsHere] at hf
    obtain ⟨ss, hr⟩ := hf.1
    exact ⟨good_raw hr (by simp only [Does]; exact hr), fun _ hc => by cases hc⟩
  | .execInternal c, inList, inner, hf, st, hd, hs, hi, r, h, hF => by
    simp only [fishCompleter] at h; cases h
    simp only [Fits, FitsHere] at hf
    obtain ⟨ss, hr⟩ := hf.1
    exact ⟨good_raw hr (by simp only [Does]; exact hr), fun _ hc => by cases hc⟩
  | .integer o, inList, inner, hf, st, hd, hs, hi, r, h, hF => by
    simp only [fishCompleter] at h
    obtain ⟨x, hx, h⟩ := ok_bind h
    cases h
    simp only [Fits] at hf
    exact ⟨good_number R hf.2 hx (fun ss h => by simp only [Does]; exact h), codes_number hx⟩
  | .float o, inList, inner, hf, st, hd, hs, hi, r, h, hF => by
    simp only [fishCompleter] at h
    obtain ⟨x, hx, h⟩ := ok_bind h
    cases h
    simp only [Fits] at hf
    exact ⟨good_number R hf.2 hx (fun ss h => by simp only [Does]; exact h), codes_number hx⟩
  | .history p, inList, inner, hf, st, hd, hs, hi, r, h, hF => by
    simp only [fishCompleter] at h
    obtain ⟨o, ho, h⟩ := ok_bind h
    cases h
    simp only [Fits] at hf
    exact good_own R ho (by decide) hf.2 (by simp only [Does])
  | .mimeFile p, inList, inner, hf, st, hd, hs, hi, r, h, hF => by
    simp only [fishCompleter] at h
    obtain ⟨o, ho, h⟩ := ok_bind h
    cases h
    simp only [Fits] at hf
    exact good_own R ho (by decide) hf.2 (by simp only [Does])
  | .ipAddress t, inList, inner, hf, st, hd, hs, hi, r, h, hF => by
    simp only [fishCompleter] at h; cases h
    exact ⟨good_ip s ctxt inner t, codes_ip t⟩
  | .keyValueListExec p v c, inList, inner, hf, st, hd, hs, hi, r, h, hF => by
    simp only [fishCompleter] at h
    obtain ⟨o, ho, h⟩ := ok_bind h
    cases h
    simp only [Fits] at hf
    exact good_own R ho (by decide) hf.2 (by simp only [Does])
  | .keyValuePairExec v c, inList, inner, hf, st, hd, hs, hi, r, h, hF => by
    simp only [fishCompleter] at h
    obtain ⟨o, ho, h⟩ := ok_bind h
    cases h
    simp only [Fits] at hf
    exact good_own R ho (by decide) hf.2 (by simp only [Does])
  | .range a b sp, inList, inner, hf, st, hd, hs, hi, r, h, hF => by
    simp only [fishCompleter] at h; cases h
    exact ⟨good_range s ctxt inner a b sp, codes_range a b sp⟩
  | .valueList v o, inList, inner, hf, st, hd, hs, hi, r, h, hF => by
    simp only [fishCompleter, fishValueList] at h
    obtain ⟨x, hx, h⟩ := ok_bind h
    obtain ⟨g, hg, hx⟩ := ok_bind hx
    cases h
    simp only [Fits, FitsHere] at hf
    have hN := addDynFunc_named R.named hd hg
    obtain ⟨ss, h1, h2⟩ := values_code v hf.1 (by
      intro i hi
      constructor
      · exact hf.2 _ (by simp only [ownWords, List.mem_cons, List.mem_flatMap]; exact Or.inr ⟨i, hi, by simp⟩)
      · exact hf.2 _ (by simp only [ownWords, List.mem_cons, List.mem_flatMap]; exact Or.inr ⟨i, hi, by simp⟩))
    have hsep := hf.2 o.separator (by simp [ownWords])
    split at hx
    · rename_i hdup
      cases hx
      refine ⟨good_call (by simp) ?_ ?_, fun _ hc => by cases hc⟩
      · intro w hw
        simp at hw
        rcases hw with rfl | rfl | rfl
        · decide
        · exact hsep
        · exact name_readable hN.1
      · simp only [Does]
        refine ⟨g.1, ss, ⟨_, hF _ (addDynFunc_spec hg).2, h1⟩, h2, ?_⟩
        simp [hdup, S]
    · rename_i hdup
      obtain ⟨o', ho, hx⟩ := ok_bind hx
      cases hx
      refine good_own R ho (by decide) ?_ ?_
      · intro w hw
        simp at hw
        rcases hw with rfl | rfl
        · exact hsep
        · exact name_readable hN.1
      · simp only [Does]
        refine ⟨g.1, ss, ⟨_, hF _ (addDynFunc_spec hg).2, h1⟩, h2, ?_⟩
        simp [hdup]
theorem fish_good_all {s : Setting} {ctxt : FishCtxt} (R : FishReady s ctxt) : ∀ (cs : Comps) (inList inner : Bool), FitsAll inList cs →
    ∀ (st : FishState), (∀ e ∈ st.dyn, NameOk e.2) → (inList = true → Stripping st.trace) →
    (inner = true → inList = true ∨ plainDirectory.plainDirectories cs = false) →
    ∀ (r : List Str × FishState), fishCompleters ctxt cs st = .ok r → (∀ e ∈ r.2.dyn, e ∈ s.functions) →
      ∃ sss, All2 Stmts r.1 sss ∧ DoesAll s inner cs sss.flatten
  | .nil, inList, inner, hf, st, hd, hs, hi, r, h, hF => by
    simp only [fishCompleters] at h; cases h
    exact ⟨[], .nil, by simp [DoesAll]⟩
  | .cons c cs, inList, inner, hf, st, hd, hs, hi, r, h, hF => by
    simp only [fishCompleters] at h
    obtain ⟨x, hx, h⟩ := ok_bind h
    obtain ⟨y, hy, h⟩ := ok_bind h
    cases h
    simp only [FitsAll] at hf
    have k1 := fish_kept ctxt c st x hx
    have k2 := fish_kept_all ctxt cs _ y hy
    have hi1 : inner = true → inList = true ∨ plainDirectory c = false := fun h =>
      (hi h).imp id (fun h => by simp [plainDirectory.plainDirectories] at h; exact h.1)
    have hi2 : inner = true → inList = true ∨ plainDirectory.plainDirectories cs = false := fun h =>
      (hi h).imp id (fun h => by simp [plainDirectory.plainDirectories] at h; exact h.2)
    have G := fish_good R c inList inner hf.1 st hd hs hi1 x hx (fun e he => hF e (k2.1 e he))
    obtain ⟨sss, h1, h2⟩ := fish_good_all R cs inList inner hf.2 x.2 (k1.2.1 R.named hd) (fun hl => (hs hl).mono k1.2.2) hi2 y hy hF
    obtain ⟨ss, h3, h4⟩ := G.1.code
    refine ⟨ss :: sss, .cons (stmts_of_read h3) h1, ?_⟩
    simp only [DoesAll, List.flatten_cons]
    exact ⟨ss, sss.flatten, h4, h2, rfl⟩
theorem fish_good_keys {s : Setting} {ctxt : FishCtxt} (R : FishReady s ctxt) (isList : Bool) (cond : Option Str) : ∀ (ks : KeyDefList),
    (isList = true ∨ cond = none) → FitsKeys isList ks → ∀ (st : FishState), (∀ e ∈ st.dyn, NameOk e.2) → Stripping st.trace →
    ∀ (r : List Str × FishState), fishKeyDefs ctxt isList cond ks st = .ok r → (∀ e ∈ r.2.dyn, e ∈ s.functions) →
      ∃ sss, All2 Stmts r.1 sss ∧ DoesKeys s isList cond ks sss.flatten
  | .nil, hc, hf, st, hd, hs, r, h, hF => by
    simp only [fishKeyDefs] at h; cases h
    exact ⟨[], .nil, by simp [DoesKeys]⟩
  | .bare k d ex ks, hc, hf, st, hd, hs, r, h, hF => by
    simp only [fishKeyDefs] at h
    obtain ⟨y, hy, h⟩ := ok_bind h
    cases h
    simp only [FitsKeys] at hf
    obtain ⟨sss, h1, h2⟩ := fish_good_keys R isList cond ks hc hf.2 st hd hs y hy hF
    refine ⟨_ :: sss, .cons (stmts_push isList cond k d ex (S "false") hc hf.1 (by decide)) h1, ?_⟩
    simp only [DoesKeys, List.flatten_cons]
    exact ⟨sss.flatten, h2, rfl⟩
  | .cons k d ex c ks, hc, hf, st, hd, hs, r, h, hF => by
    rw [fishKeyDefs.eq_def] at h
    simp only [FitsKeys] at hf
    split at h
    · simp at *
    · simp at *
    · rename_i e
      cases e
      obtain ⟨y, hy, h⟩ := ok_bind h
      cases h
      obtain ⟨sss, h1, h2⟩ := fish_good_keys R isList cond ks hc hf.2.2 _ hd hs y hy hF
      refine ⟨_ :: sss, .cons (stmts_push isList cond k d ex (S "true") hc hf.1 (by decide)) h1, ?_⟩
      simp only [DoesKeys, List.flatten_cons]
      exact ⟨_, sss.flatten, Or.inl (by simp only [Does]; exact Or.inr rfl), h2, rfl⟩
    · rename_i e
      cases e
      obtain ⟨x, hx, h⟩ := ok_bind h
      obtain ⟨a, ha, h⟩ := ok_bind h
      obtain ⟨y, hy, h⟩ := ok_bind h
      cases h
      have k0 := fish_kept ctxt c _ x hx
      have k1 := fishFunction_kept ha
      have k2 := fish_kept_keys ctxt isList cond ks _ y hy
      have hdx := k0.2.1 R.named hd
      have G := fish_good R c true true hf.2.1 _ hd (fun _ => hs) (fun _ => Or.inl rfl) x hx (fun e he => hF e (k2.1 e (k1.1 e he)))
      have hv := function_of_good R.named G.1 hdx ha (fun e he => hF e (k2.1 e he))
      obtain ⟨sss, h1, h2⟩ := fish_good_keys R isList cond ks hc hf.2.2 ⟨x.2.trace, a.2⟩ (k1.2 R.named hdx) (hs.mono k0.2.2) y hy hF
      refine ⟨_ :: sss, .cons (stmts_push isList cond k d ex a.1 hc hf.1 hv.1) h1, ?_⟩
      simp only [DoesKeys, List.flatten_cons]
      exact ⟨_, sss.flatten, hv.2, h2, rfl⟩
end

/-! ## Generation succeeds -/

theorem fishFunction_total (ctxt : FishCtxt) (dyn : Dyn) (h : DynOk dyn) (o : FishObj) : ∃ r, o.getFunction ctxt dyn = .ok r ∧ DynOk r.2 := by
  unfold FishObj.getFunction
  split
  · exact ⟨_, rfl, h⟩
  · exact ⟨_, rfl, h⟩
  · exact ⟨_, rfl, h⟩
  · exact dynFunc_total _ _ _ h

theorem runDynArgs_total (ctxt : FishCtxt) (code : Str) (dyn : Dyn) (h : DynOk dyn) :
    ∃ r, runDynArgs ctxt code dyn = .ok r ∧ DynOk r.2 := by
  obtain ⟨g, h1, h2⟩ := dynFunc_total ctxt.base code dyn h
  exact exists_bind h1 ⟨_, rfl, h2⟩

theorem fishArgs_total (ctxt : FishCtxt) (dyn : Dyn) (h : DynOk dyn) (o : FishObj) : ∃ r, o.getArgs ctxt dyn = .ok r ∧ DynOk r.2 := by
  unfold FishObj.getArgs
  split
  · exact ⟨_, rfl, h⟩
  · exact ⟨_, rfl, h⟩
  · exact ⟨_, rfl, h⟩
  · split
    · exact ⟨_, rfl, h⟩
    · exact runDynArgs_total _ _ _ h
  · split <;> exact ⟨_, rfl, h⟩
  · split
    · exact runDynArgs_total _ _ _ h
    · exact ⟨_, rfl, h⟩
  · split
    · exact ⟨_, rfl, h⟩
    · exact runDynArgs_total _ _ _ h
  · exact runDynArgs_total _ _ _ h

theorem fishHelper_total (ctxt : FishCtxt) (name : String) (args : List Str) (hl : ∃ l, assocGet fishRepo (S name) = some l) :
    ∃ o, fishHelper ctxt name args = .ok o := by
  obtain ⟨l, hl⟩ := hl
  exact ⟨.command (realName ctxt.pre (S name) :: args), by simp only [fishHelper, useHelper, hl]; rfl⟩

theorem fishDirectory_total (ctxt : FishCtxt) (t : List Str) (d : Option Str) : ∃ o, fishDirectory ctxt t d = .ok o := by
  unfold fishDirectory
  split
  · exact fishHelper_total _ _ _ ⟨_, rfl⟩
  · split
    · exact fishHelper_total _ _ _ ⟨_, rfl⟩
    · exact ⟨_, rfl⟩

theorem fishFile_total (ctxt : FishCtxt) (o : FileOpts) (h : GlobsRead o) : ∃ r, fishFile ctxt o = .ok r := by
  obtain ⟨globs, hg⟩ := mapE_total bashGlobToRegex o.ignoreGlobs h
  unfold fishFile
  rw [show useHelper fishRepo ctxt.pre (S "filedir") = .ok (realName ctxt.pre (S "filedir")) from rfl, hg]
  exact ⟨_, rfl⟩

theorem fishNumber_total (ctxt : FishCtxt) (o : NumOpts) : ∃ r, fishNumber ctxt o = .ok r := by
  unfold fishNumber
  split
  · exact ⟨_, rfl⟩
  · exact fishHelper_total _ _ _ ⟨_, rfl⟩

theorem fishVoid_total (ctxt : FishCtxt) (n : Str) : ∃ o, fishVoid ctxt n = .ok o := by
  unfold fishVoid
  repeat' first
    | apply ite_ok
    | exact ⟨_, rfl⟩
    | exact fishHelper_total _ _ _ ⟨_, rfl⟩

theorem fish_plain_total {x : Except Err FishObj} {st : FishState} (hd : DynOk st.dyn) (h : ∃ o, x = .ok o) :
    ∃ r, (do let o ← x; .ok (o, st) : Except Err (FishObj × FishState)) = .ok r ∧ DynOk r.2.dyn := by
  obtain ⟨o, rfl⟩ := h
  exact ⟨_, rfl, hd⟩

theorem fishDynCommand_total (ctxt : FishCtxt) (code : Str) (st : FishState) (h : DynOk st.dyn) :
    ∃ r, fishDynCommand ctxt code st = .ok r ∧ DynOk r.2.dyn := by
  obtain ⟨g, h1, h2⟩ := dynFunc_total ctxt.base code st.dyn h
  exact exists_bind h1 ⟨_, rfl, h2⟩

theorem fishListed_total (ctxt : FishCtxt) (o : SepOpts) {x : Str × Dyn} (t : List Str) (h : DynOk x.2) :
    ∃ r, (do let l ← fishListObj ctxt o x.1; .ok (l, ⟨t, x.2⟩) : Except Err (FishObj × FishState)) = .ok r ∧ DynOk r.2.dyn := by
  obtain ⟨l, hl⟩ := fishHelper_total ctxt "list" ((if o.duplicates then [S "-d"] else []) ++ [o.separator, x.1]) ⟨_, rfl⟩
  exact exists_bind (x := fishListObj ctxt o x.1) hl ⟨_, rfl, h⟩

mutual
theorem fish_total (ctxt : FishCtxt) : ∀ (c : Comp), Accepted c → ∀ (st : FishState), DynOk st.dyn →
    ∃ r, fishCompleter ctxt c st = .ok r ∧ DynOk r.2.dyn
  | .combine cs, ha, st, h => by
    simp only [Accepted] at ha
    obtain ⟨r, h1, h2⟩ := fish_totals ctxt cs ha ⟨st.trace ++ [S "combine"], st.dyn⟩ h
    simp only [fishCompleter]
    exact exists_bind h1 ⟨_, rfl, h2⟩
  | .list c o, ha, st, h => by
    simp only [Accepted] at ha
    obtain ⟨r, h1, h2⟩ := fish_total ctxt c ha ⟨st.trace ++ [S "list"], st.dyn⟩ h
    obtain ⟨g, h4, h5⟩ := fishFunction_total ctxt r.2.dyn h2 r.1
    simp only [fishCompleter]
    exact exists_bind h1 (exists_bind h4 (fishListed_total ctxt o _ h5))
  | .prefix p c, ha, st, h => by
    simp only [Accepted] at ha
    obtain ⟨r, h1, h2⟩ := fish_total ctxt c ha st h
    obtain ⟨g, h4, h5⟩ := fishFunction_total ctxt r.2.dyn h2 r.1
    simp only [fishCompleter]
    obtain ⟨o, ho⟩ := fishHelper_total ctxt "prefix" [p, g.1] ⟨_, rfl⟩
    exact exists_bind h1 (exists_bind h4 (exists_bind ho ⟨_, rfl, h5⟩))
  | .keyValueList ps vs ks cond, ha, st, h => by
    simp only [Accepted] at ha
    obtain ⟨r, h1, h2⟩ := fish_total_keys ctxt true cond ks ha ⟨st.trace ++ [S "key_value_list"], st.dyn⟩ h
    simp only [fishCompleter]
    exact exists_bind h1 (exists_bind (a := realName ctxt.pre (S "key_value_list")) rfl (fishDynCommand_total _ _ _ h2))
  | .keyValuePair vs ks cond, ha, st, h => by
    simp only [Accepted] at ha
    obtain ⟨r, h1, h2⟩ := fish_total_keys ctxt false cond ks ha ⟨st.trace ++ [S "key_value_pair"], st.dyn⟩ h
    simp only [fishCompleter]
    exact exists_bind h1 (exists_bind (a := realName ctxt.pre (S "key_value_pair")) rfl (fishDynCommand_total _ _ _ h2))
  | .void n, _, st, h => by simp only [fishCompleter]; exact fish_plain_total h (fishVoid_total ctxt n)
  | .none, _, st, h => by simp only [fishCompleter]; exact ⟨_, rfl, h⟩
  | .commandArg, _, st, h => by
    simp only [fishCompleter]
    exact exists_bind (a := realName ctxt.pre (S "positional_position")) rfl ⟨_, rfl, h⟩
  | .date f, _, st, h => by simp only [fishCompleter]; exact ⟨_, rfl, h⟩
  | .choices c, _, st, h => by simp only [fishCompleter]; exact ⟨_, rfl, h⟩
  | .command p a b, _, st, h => by simp only [fishCompleter]; exact ⟨_, rfl, h⟩
  | .directory d, _, st, h => by simp only [fishCompleter]; exact fish_plain_total h (fishDirectory_total ctxt _ d)
  | .file o, ha, st, h => by
    simp only [Accepted] at ha
    simp only [fishCompleter]; exact fish_plain_total h (fishFile_total ctxt o ha)
  | .directoryList d l, _, st, h => by
    obtain ⟨o, h1⟩ := fishDirectory_total ctxt (st.trace ++ [S "list"]) d
    obtain ⟨g, h4, h5⟩ := fishFunction_total ctxt st.dyn h o
    simp only [fishCompleter]
    exact exists_bind h1 (exists_bind h4 (fishListed_total ctxt l _ h5))
  | .fileList o l, ha, st, h => by
    simp only [Accepted] at ha
    obtain ⟨o, h1⟩ := fishFile_total ctxt o ha
    obtain ⟨g, h4, h5⟩ := fishFunction_total ctxt st.dyn h o
    simp only [fishCompleter]
    exact exists_bind h1 (exists_bind h4 (fishListed_total ctxt l _ h5))
  | .exec c, _, st, h => by simp only [fishCompleter]; exact ⟨_, rfl, h⟩
  | .execFast c, _, st, h => by simp only [fishCompleter]; exact ⟨_, rfl, h⟩
  | .execInternal c, _, st, h => by simp only [fishCompleter]; exact ⟨_, rfl, h⟩
  | .integer o, _, st, h => by simp only [fishCompleter]; exact fish_plain_total h (fishNumber_total _ _)
  | .float o, _, st, h => by simp only [fishCompleter]; exact fish_plain_total h (fishNumber_total _ _)
  | .history p, _, st, h => by simp only [fishCompleter]; exact fish_plain_total h (fishHelper_total _ _ _ ⟨_, rfl⟩)
  | .mimeFile p, _, st, h => by simp only [fishCompleter]; exact fish_plain_total h (fishHelper_total _ _ _ ⟨_, rfl⟩)
  | .ipAddress t, _, st, h => by simp only [fishCompleter]; exact ⟨_, rfl, h⟩
  | .keyValueListExec p v c, _, st, h => by simp only [fishCompleter]; exact fish_plain_total h (fishHelper_total _ _ _ ⟨_, rfl⟩)
  | .keyValuePairExec v c, _, st, h => by simp only [fishCompleter]; exact fish_plain_total h (fishHelper_total _ _ _ ⟨_, rfl⟩)
  | .range a b sp, _, st, h => by simp only [fishCompleter]; exact ⟨_, rfl, h⟩
  | .valueList v o, _, st, h => by
    obtain ⟨g, h1, h2⟩ := dynFunc_total ctxt.base (fishValuesCode v) st.dyn h
    have : ∃ r, fishValueList ctxt v o st.dyn = .ok r ∧ DynOk r.2 := by
      unfold fishValueList
      refine exists_bind h1 ?_
      split
      · exact ⟨_, rfl, h2⟩
      · obtain ⟨l, hl⟩ := fishHelper_total ctxt "list" [o.separator, g.1] ⟨_, rfl⟩
        exact exists_bind hl ⟨_, rfl, h2⟩
    obtain ⟨r, h3, h4⟩ := this
    simp only [fishCompleter]
    exact exists_bind h3 ⟨_, rfl, h4⟩
theorem fish_totals (ctxt : FishCtxt) : ∀ (cs : Comps), AcceptedAll cs → ∀ (st : FishState), DynOk st.dyn →
    ∃ r, fishCompleters ctxt cs st = .ok r ∧ DynOk r.2.dyn
  | .nil, _, st, h => ⟨_, by simp only [fishCompleters]; rfl, h⟩
  | .cons c cs, ha, st, h => by
    simp only [AcceptedAll] at ha
    obtain ⟨r, h1, h2⟩ := fish_total ctxt c ha.1 st h
    obtain ⟨q, h6, h7⟩ := fish_totals ctxt cs ha.2 r.2 h2
    simp only [fishCompleters]
    exact exists_bind h1 (exists_bind h6 ⟨_, rfl, h7⟩)
theorem fish_total_keys (ctxt : FishCtxt) (isList : Bool) (cond : Option Str) : ∀ (ks : KeyDefList), AcceptedKeys ks →
    ∀ (st : FishState), DynOk st.dyn → ∃ r, fishKeyDefs ctxt isList cond ks st = .ok r ∧ DynOk r.2.dyn
  | .nil, _, st, h => ⟨_, by simp only [fishKeyDefs]; rfl, h⟩
  | .bare k d ex ks, ha, st, h => by
    simp only [AcceptedKeys] at ha
    obtain ⟨r, h1, h2⟩ := fish_total_keys ctxt isList cond ks ha st h
    simp only [fishKeyDefs]
    exact exists_bind h1 ⟨_, rfl, h2⟩
  | .cons k d ex c ks, ha, st, h => by
    simp only [AcceptedKeys] at ha
    rw [fishKeyDefs.eq_def]
    split
    · simp at *
    · simp at *
    · rename_i e
      cases e
      obtain ⟨r, h1, h2⟩ := fish_total_keys ctxt isList cond ks ha.2 _ h
      exact exists_bind h1 ⟨_, rfl, h2⟩
    · rename_i e
      cases e
      obtain ⟨r, h1, h2⟩ := fish_total ctxt c ha.1 _ h
      obtain ⟨a, h4, h5⟩ := fishFunction_total ctxt r.2.dyn h2 r.1
      obtain ⟨q, h6, h7⟩ := fish_total_keys ctxt isList cond ks ha.2 ⟨r.2.trace, a.2⟩ h5
      exact exists_bind h1 (exists_bind h4 (exists_bind h6 ⟨_, rfl, h7⟩))
end

end FishReads

open FishReads FishCode FishCompleter

/-! ## The property -/

/-- **C86.** For every completer that the generator accepts, the arguments of `complete` that are generated do, with
the functions of the script, what the completer is to do. Partial: the texts must be such that they can be written
(`Fits`); the theorems below show where the code fails without that. -/
theorem C86_fish_args_partial (ctxt : FishCtxt) (hp : ∀ c ∈ ctxt.pre, isSafeChar c = true) (hb : NameOk ctxt.base) (c : Comp)
    (ha : Accepted c) (dyn : Dyn) (hd : DynOk dyn) (hn : ∀ e ∈ dyn, NameOk e.2) :
    ∃ o st args dyn', fishCompleter ctxt c ⟨[], dyn⟩ = .ok (o, st) ∧ o.getArgs ctxt st.dyn = .ok (args, dyn') ∧
      DynOk dyn' ∧ (∀ e ∈ dyn, e ∈ dyn') ∧ (∀ e ∈ dyn', NameOk e.2) ∧
      ∀ F, (∀ e ∈ dyn', e ∈ F) → Fits false c → Args ⟨ctxt.pre, F, ctxt.position⟩ c args := by
  obtain ⟨r, h1, h2⟩ := fish_total ctxt c ha ⟨[], dyn⟩ hd
  obtain ⟨a, h4, h5⟩ := fishArgs_total ctxt r.2.dyn h2 r.1
  have k1 := fish_kept ctxt c ⟨[], dyn⟩ r h1
  have k2 := fishArgs_kept h4
  have hdr := k1.2.1 hb hn
  refine ⟨r.1, r.2, a.1, a.2, h1, h4, h5, fun e he => k2.1 e (k1.1 e he), k2.2 hb hdr, fun F hF hf => ?_⟩
  have R : FishReady ⟨ctxt.pre, F, ctxt.position⟩ ctxt := ⟨rfl, rfl, hp, hb⟩
  have G := fish_good R c false false hf ⟨[], dyn⟩ hn (by simp) (by simp) r h1 (fun e he => hF e (k2.1 e he))
  exact args_of_good hb G.1 G.2 hdr h4 hF

/-- **C86**, for places that want the name of a function: the function with that name does what the completer
does. -/
theorem C86_fish_function_partial (ctxt : FishCtxt) (hp : ∀ c ∈ ctxt.pre, isSafeChar c = true) (hb : NameOk ctxt.base) (c : Comp)
    (ha : Accepted c) (dyn : Dyn) (hd : DynOk dyn) (hn : ∀ e ∈ dyn, NameOk e.2) :
    ∃ o st g dyn', fishCompleter ctxt c ⟨[], dyn⟩ = .ok (o, st) ∧ o.getFunction ctxt st.dyn = .ok (g, dyn') ∧
      DynOk dyn' ∧ (∀ e ∈ dyn, e ∈ dyn') ∧ (∀ e ∈ dyn', NameOk e.2) ∧
      ∀ F, (∀ e ∈ dyn', e ∈ F) → Fits false c → Via ⟨ctxt.pre, F, ctxt.position⟩ false c g := by
  obtain ⟨r, h1, h2⟩ := fish_total ctxt c ha ⟨[], dyn⟩ hd
  obtain ⟨a, h4, h5⟩ := fishFunction_total ctxt r.2.dyn h2 r.1
  have k1 := fish_kept ctxt c ⟨[], dyn⟩ r h1
  have k2 := fishFunction_kept h4
  have hdr := k1.2.1 hb hn
  refine ⟨r.1, r.2, a.1, a.2, h1, h4, h5, fun e he => k2.1 e (k1.1 e he), k2.2 hb hdr, fun F hF hf => ?_⟩
  have R : FishReady ⟨ctxt.pre, F, ctxt.position⟩ ctxt := ⟨rfl, rfl, hp, hb⟩
  have G := fish_good R c false false hf ⟨[], dyn⟩ hn (by simp) (by simp) r h1 (fun e he => hF e (k2.1 e he))
  exact (FishReads.function_of_good hb G.1 hdr h4 hF).2

/-! ## Where the code fails -/

/-- Fish offers nothing for a date. -/
theorem C86_date (ctxt : FishCtxt) (f : Str) (st : FishState) : fishCompleter ctxt (.date f) st = .ok (.nothing, st) := by
  simp only [fishCompleter]

/-- The condition of `key_value_pair` is asked about its own name instead of the key. -/
theorem C86_pair_condition : FishCode.read (fishPushLine false (some (S "_p__cond")) (S "key") none [] (S "true")) =
    some [[.word [.exp ['c']], lit (S "_p__cond"), .and] ++ call [S "set", S "-a", S "a", S "key", [], S "true"]] := by
  decide +kernel

/-- Behind a prefix, directories are completed with the function of Fish, which takes the whole word, prefix
included. -/
theorem C86_prefix_directory (ctxt : FishCtxt) (dyn : Dyn) :
    fishCompleter ctxt (.prefix (S "@") (.directory none)) ⟨[], dyn⟩ =
      .ok (.command [realName ctxt.pre (S "prefix"), S "@", S "__fish_complete_directories"], ⟨[], dyn⟩) := rfl

/-- Which function completes a directory depends on the completers in front of it: behind a list it is another
one. -/
theorem C86_order :
    let ctxt : FishCtxt := ⟨S "_p", S "_p__x", 80, 1⟩
    let list : Comp := .list (.void (S "user")) { separator := [','] }
    (fishCompleters ctxt (.cons (.directory none) (.cons list .nil)) ⟨[], []⟩).toOption.map (·.1) =
      some [S "__fish_complete_directories", S "_p__list , __fish_complete_users"] ∧
    (fishCompleters ctxt (.cons list (.cons (.directory none) .nil)) ⟨[], []⟩).toOption.map (·.1) =
      some [S "_p__list , __fish_complete_users", S "_p__filedir -D"] := by
  decide +kernel

/-- A list of no choices offers an empty candidate. -/
theorem C86_no_choices (ctxt : FishCtxt) : FishCode.read ((FishObj.choices (.list [])).getCode ctxt) =
      some [call [S "printf", S "%s\\n"]] ∧
    FishWords.printfLines [S "%s\\n"] = some [[]] := by
  refine ⟨?_, by decide +kernel⟩
  have : (FishObj.choices (.list [])).getCode ctxt = S "printf '%s\\n'" := by
    simp only [FishObj.getCode, fishCode, List.map_nil, joinWithWrap, wrapGo]
    decide +kernel
  rw [this]
  decide +kernel

/-- Two backslashes in an argument become one. -/
theorem C86_backslash (ctxt : FishCtxt) : FishCode.read ((FishObj.command [S "_p__history", S "a\\\\b"]).getCode ctxt) =
    some [call [S "_p__history", S "a\\b"]] := by
  simp only [FishObj.getCode]
  decide +kernel

/-! ## An example -/

/-- Choices, and a list of pairs whose value is a text file below `/tmp`. -/
def fishSample : Comp :=
  .combine (.cons (.choices (.list [.str (S "a"), .str (S "b c")])) (.cons (.list (.keyValuePair ['=']
    (.cons (S "log") (some (S "the log")) [] (.file { directory := some (S "/tmp"), extensions := [S "md"] })
      (.bare (S "quiet") none [] .nil)) none) { separator := [';'] }) .nil))

/-- The surroundings of the example. -/
def fishSampleCtxt : FishCtxt := ⟨S "_prog", S "_prog__--out", 80, 1⟩

theorem C86_example : (∀ c ∈ fishSampleCtxt.pre, isSafeChar c = true) ∧ NameOk fishSampleCtxt.base ∧ Accepted fishSample ∧
    Fits false fishSample ∧
    (do let r ← fishCompleter fishSampleCtxt fishSample ⟨[], []⟩; r.1.getArgs fishSampleCtxt r.2.dyn).toOption =
      some ([S "-f", S "-a", S "(_prog__--out1)"], [
        (S "_prog__filedir -C /tmp -r '(.*\\.[mM][dD])'", S "_prog__--out"),
        (S "set -l a\nset -a a log 'the log' _prog__--out\nset -a a quiet '' false\n_prog__key_value_pair = $a",
          S "_prog__--out0"),
        (S "printf '%s\\n' \\\n  a 'b c'\n_prog__list ';' _prog__--out0", S "_prog__--out1")]) := by
  refine ⟨by decide +kernel, ?_, ?_, ?_, by decide +kernel⟩
  · refine ⟨by decide +kernel, ?_, by decide +kernel⟩
    intro c hc
    have : fishSampleCtxt.base.head? = some '_' := by decide +kernel
    rw [this] at hc; cases hc; exact Or.inr rfl
  · simp [fishSample, Accepted, AcceptedAll, AcceptedKeys, GlobsRead]
  · simp only [fishSample, Fits, FitsAll, FitsKeys, FitsHere, ownWords, ownWords.fileTexts, keyTexts, FishCompleter.Readable, ExtensionsFit,
      BashCompleter.NotEmpty, and_true]
    refine ⟨⟨⟨⟨?_, ?_⟩, ?_⟩, ?_⟩, ?_⟩
    · simp only [Choices.words]; decide +kernel
    · simp [Choices.descriptions]
    · simp only [Choices.words]; decide +kernel
    · simp
    · simp
      and_intros <;> decide +kernel

end CC
