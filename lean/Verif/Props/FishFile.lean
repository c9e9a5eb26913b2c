import Verif.Lemmas.Decimal
import Verif.Lemmas.FishHead
/-!
# C87: the Fish script runs and registers what was computed

`Spec/FishRun.lean` says what Fish does when it runs a script of `set -l` and `complete` commands, and when the
conditions of a registered entry succeed. Here the text of the script (`Model/FishFile.lean`) is run. C68 and C69 say
when the definitions behind the entries are active; the last theorem puts both together.
-/

namespace CC
open FishReads
open ShellGrammar (Tok Denotes)

/-! ## Specification -/

/-- The texts of the definition can be written down in Fish, and the script is about what it says it is about. -/
structure Writable (isRegex : Str → Bool) (pre : Str) (args : List Cmd → Cmd → Nat → List Str)
    (items : List Cmd → Cmd → Nat → List FishArgItem) (root : Cmd) : Prop where
  /-- The prefix of the functions. -/
  pre : ∀ c ∈ pre, isSafeChar c = true
  /-- The name of the program stands in single quotes. -/
  prog : '\'' ∉ root.data.prog ∧ backslashHarmless root.data.prog = true
  wraps : ∀ s, root.data.wraps = some s → ∀ c ∈ s, isSafeChar c = true
  /-- The aliases stand without quotes. -/
  aliases : ∀ x ∈ root.data.aliases, Plain x ∧ Plain root.data.prog ∧ x ≠ root.data.prog
  /-- The names of the commands stand in comments. -/
  comments : ∀ qs c, At root qs c → '\n' ∉ c.data.prog
  /-- The arguments of the `complete` command of a definition, and what stands in quotes in it. -/
  defs : ∀ qs c, At root qs c → ∀ ds, fishDefsOf isRegex qs c = .ok ds → ∀ i d, ds[i]? = some d →
    ParsesTo (args qs c i) (items qs c i) ∧ DefReads d (items qs c i) ∧
    -- the arguments of the conditions
    ∀ p ∈ d.prims, ∀ a ∈ p.args, fishReadable a = true ∧ '`' ∉ a
  /-- The conditions of the user. -/
  options : ∀ qs c, At root qs c → ∀ o ∈ c.data.options, ∀ t ts, o.when_ = some t → t ≠ [] → parseWhen isRegex t = .ok ts → ∃ e, Denotes ts e
  positionals : ∀ qs c, At root qs c → ∀ p ∈ c.data.positionals, ∀ t ts, p.when_ = some t → t ≠ [] → parseWhen isRegex t = .ok ts → ∃ e, Denotes ts e

/-- The entry of a definition: what it is for, and when it is active. `v` says which calls of functions succeed. -/
structure EntryFor (stacking : Bool) (pre prog : Str) (x : FishDef × List FishArgItem) (e : FishRun.Entry) : Prop where
  command : e.command = prog
  options : ∀ w, w ∈ e.options ↔ w ∈ x.1.offers
  stacked : stacking = true → e.shorts = x.1.short.map stripDashes
  unstacked : stacking = false → e.shorts = []
  option : ∀ o, x.1.target = .option o → e.description = o.help ∧ (e.requires = true ↔ o.complete ≠ none ∧ o.optionalArg = false) ∧
    e.keepOrder = o.nosort
  positional : ∀ p, x.1.target = .positional p → e.description = p.help ∧ e.requires = true ∧ e.keepOrder = p.nosort
  subcommands : ∀ n, x.1.target = .subcommands n → e.description = some (S "Commands") ∧ e.requires = false ∧ e.keepOrder = false
  noFiles : e.noFiles = true ↔ .f ∈ x.2
  forceFiles : e.forceFiles = true ↔ .F ∈ x.2
  arguments : e.arguments = (x.2.filterMap (fun | .a s => some s | _ => none)).getLast?
  active : ∀ v, e.Active v ↔ v [realName pre (S "prepare")] = true ∧ x.1.active (fun p => v (realName pre p.variable :: p.args))

/-! ## Lemmas -/

namespace FishReads

theorem at_name {root : Cmd} {qs : List Cmd} {c : Cmd} (h : At root qs c) : ∀ x ∈ qs ++ [c], ∃ rs, At root rs x := by
  induction h with
  | root => intro x hx; simp at hx; subst hx; exact ⟨[], .root⟩
  | @child qs c d h hd ih =>
    intro x hx
    rcases List.mem_append.mp hx with hx | hx
    · exact ih x hx
    · simp at hx; subst hx; exact ⟨_, .child h hd⟩

theorem any_f (items : List FishArgItem) : items.any (fun | .f => true | _ => false) = true ↔ .f ∈ items := by
  rw [List.any_eq_true]
  constructor
  · rintro ⟨x, h1, h2⟩; cases x <;> simp at h2; exact h1
  · intro h; exact ⟨_, h, rfl⟩

theorem any_F (items : List FishArgItem) : items.any (fun | .F => true | _ => false) = true ↔ .F ∈ items := by
  rw [List.any_eq_true]
  constructor
  · rintro ⟨x, h1, h2⟩; cases x <;> simp at h2; exact h1
  · intro h; exact ⟨_, h, rfl⟩

theorem fix_when (d : FishDef) (nums : List Nat) : (d.fix nums).when_ = d.when_ := by
  unfold FishDef.fix; split <;> rfl

theorem when_of {isRegex : Str → Bool} {w : Option Str} {ts : List (Tok Cond)} (h : whenTokens isRegex w = .ok ts)
    (hw : ∀ t ts, w = some t → t ≠ [] → parseWhen isRegex t = .ok ts → ∃ e, Denotes ts e) : ts = [] ∨ ∃ e, Denotes ts e := by
  unfold whenTokens at h
  split at h
  · cases h; exact .inl rfl
  · cases h; exact .inl rfl
  · rename_i t hne
    exact .inr (hw t ts rfl (fun e => hne (by rw [e])) h)

theorem whenReads_def {isRegex : Str → Bool} {pre : Str} {args : List Cmd → Cmd → Nat → List Str}
    {items : List Cmd → Cmd → Nat → List FishArgItem} {root : Cmd} (hw : Writable isRegex pre args items root) {ds : List FishDef}
    (hs : fishScript isRegex root = .ok ds) {d : FishDef} (hd : d ∈ ds) : WhenReads d := by
  obtain ⟨qs, x, d0, hat, hfrom, rfl⟩ := (fishScript_iff hs d).mp hd
  unfold WhenReads
  rw [fix_when]
  cases hfrom with
  | option o d ho h =>
    obtain ⟨r, -, h1, -⟩ := fishOption_ok h
    exact when_of h1 (hw.options qs x hat o ho)
  | positional p d hp h =>
    exact when_of (fishPositional_ok h).1 (hw.positionals qs x hat p hp)
  | subcommands n h => exact .inl rfl

theorem entry_for {pre : Str} {stacking : Bool} {prog : Str} {funcs : List Str} (hp : ∀ c ∈ pre, isSafeChar c = true)
    {x : FishDef × List FishArgItem} {e : FishRun.Entry} (hr : ∀ p ∈ x.1.prims, PrimReads p ∧ p.variable ∈ funcs) (hd : WhenReads x.1)
    {vars : List (Str × Str)} (henv : Env prog pre funcs vars) (h : Registered stacking prog pre funcs x e) :
    EntryFor stacking pre prog x e := by
  have hact := registered_active hp hr hd henv h
  obtain ⟨texts, xs, h1, h2, rfl⟩ := h
  refine ⟨rfl, ?_, ?_, ?_, ?_, ?_, ?_, any_f _, any_F _, rfl, hact⟩
  · intro w
    unfold FishRun.Entry.options FishDef.offers defEntry nameOf
    cases stacking <;> simp [or_comm, or_assoc]
  · rintro rfl; rfl
  · rintro rfl; rfl
  · intro o ho
    refine ⟨?_, ?_, ?_⟩
    · simp only [defEntry, ho, FishTarget.description]
    · simp only [defEntry, ho, FishTarget.requires, Opt.hasRequiredArg, Bool.and_eq_true, Bool.not_eq_true', Option.isSome_iff_ne_none]
    · simp only [defEntry, ho, FishTarget.keepOrder]
  · intro p hp
    exact ⟨by simp only [defEntry, hp, FishTarget.description], by simp only [defEntry, hp, FishTarget.requires],
      by simp only [defEntry, hp, FishTarget.keepOrder]⟩
  · intro n hn
    exact ⟨by simp only [defEntry, hn, FishTarget.description], by simp only [defEntry, hn, FishTarget.requires],
      by simp only [defEntry, hn, FishTarget.keepOrder]⟩

theorem withItems_fst (items : List Cmd → Cmd → Nat → List FishArgItem) : ∀ (l : List (List Cmd × Cmd)) (dss : List (List FishDef)),
    dss.length = l.length → (withItems items l dss).map (·.1) = dss.flatten
  | [], [], _ => rfl
  | e :: l, ds :: dss, h => by
    have ih := withItems_fst items l dss (by simpa using h)
    unfold withItems at ih ⊢
    rw [List.zip_cons_cons, List.flatMap_cons, List.map_append, ih, List.flatten_cons, List.map_map]
    congr 1
    have : ((fun x : FishDef × List FishArgItem => x.1) ∘ fun e' : FishDef × Nat => (e'.1, items e.1 e.2 e'.2)) = Prod.fst := rfl
    simp only [this]
    exact List.zipIdx_map_fst 0 ds

theorem mem_withItems {isRegex : Str → Bool} (items : List Cmd → Cmd → Nat → List FishArgItem) : ∀ (l : List (List Cmd × Cmd))
    (dss : List (List FishDef)), mapE (fun e => fishDefsOf isRegex e.1 e.2) l = .ok dss → ∀ x ∈ withItems items l dss,
    ∃ e ∈ l, ∃ ds i, fishDefsOf isRegex e.1 e.2 = .ok ds ∧ ds[i]? = some x.1 ∧ x.2 = items e.1 e.2 i
  | [], dss, h, x, hx => by cases h; simp [withItems] at hx
  | e :: l, dss, h, x, hx => by
    simp only [mapE, bind, Except.bind] at h
    cases h1 : fishDefsOf isRegex e.1 e.2 with
    | error er => rw [h1] at h; simp at h
    | ok ds =>
      rw [h1] at h
      cases h2 : mapE (fun e => fishDefsOf isRegex e.1 e.2) l with
      | error er => rw [h2] at h; simp at h
      | ok dss' =>
        rw [h2] at h
        simp only [Except.ok.injEq] at h
        subst h
        unfold withItems at hx
        rw [List.zip_cons_cons, List.flatMap_cons, List.mem_append] at hx
        rcases hx with hx | hx
        · obtain ⟨y, hy, rfl⟩ := List.mem_map.mp hx
          rw [List.mem_zipIdx_iff_getElem?] at hy
          exact ⟨e, by simp, ds, y.2, h1, hy, rfl⟩
        · obtain ⟨e', he, r⟩ := mem_withItems items l dss' h2 x hx
          exact ⟨e', by simp [he], r⟩

theorem all2_of {α β : Type} {R T : α → β → Prop} {as : List α} {bs : List β} (h : All2 R as bs) (hi : ∀ a ∈ as, ∀ b, R a b → T a b) : All2 T as bs := by
  induction h with
  | nil => exact .nil
  | @cons a b as bs hr _ ih => exact .cons (hi a (by simp) b hr) (ih (fun x hx => hi x (by simp [hx])))

theorem used_variable (extra : Str → Bool) {ds : List FishDef} {d : FishDef} (hd : d ∈ ds) {p : FishPrim} (hp : p ∈ d.prims) :
    p.variable ∈ scriptFunctions.filter (functionUsed extra ds) := by
  refine List.mem_filter.mpr ⟨variable_mem p, ?_⟩
  unfold functionUsed
  rw [Bool.or_eq_true]
  right
  rw [List.any_eq_true]
  refine ⟨d, hd, ?_⟩
  rw [List.any_eq_true]
  exact ⟨p, hp, by simp⟩

end FishReads

/-! ## C87 -/

/-- The script can be generated, and it runs in every state of Fish. Afterwards the old entries of the program and of
its aliases are gone, those of other commands are as before. The program has an entry that turns files off and one
entry for each definition, in the order of the definitions; its aliases are completed like it, and it is completed
like the command that it wraps. -/
theorem C87_script_partial (isRegex : Str → Bool) (inline stacking : Bool) (pre : Str) (extra : Str → Bool)
    (args : List Cmd → Cmd → Nat → List Str) (items : List Cmd → Cmd → Nat → List FishArgItem) (root : Cmd)
    (hw : Writable isRegex pre args items root) (ds : List FishDef) (hs : fishScript isRegex root = .ok ds) :
    ∃ text, fishScriptText isRegex inline stacking pre extra args root = .ok text ∧
      ∃ des : List (FishDef × List FishArgItem), des.map (·.1) = ds ∧
        (∀ x ∈ des, ∃ qs c own i, At root qs c ∧ fishDefsOf isRegex qs c = .ok own ∧ own[i]? = some x.1 ∧ x.2 = items qs c i) ∧
      ∀ a : FishRun.State, ∃ (b : FishRun.State) (es : List FishRun.Entry), FishRun.runScript a text = some b ∧
        b.entries = a.entries.filter (fun e => decide (e.command ≠ root.data.prog ∧ e.command ∉ root.data.aliases)) ++
          { command := root.data.prog, requires := true, noFiles := true } :: es ∧
        All2 (EntryFor stacking pre root.data.prog) des es ∧
        b.wraps = a.wraps ++ (match root.data.wraps with | some (c :: cs) => [(root.data.prog, c :: cs)] | _ => []) ++
          root.data.aliases.map (fun x => (x, root.data.prog)) := by
  unfold fishScriptText
  have hs' := hs
  unfold fishScript at hs
  simp only [bind, Except.bind] at hs
  cases h1 : mapE (fun e : List Cmd × Cmd => fishDefsOf isRegex e.1 e.2) (root.walk []) with
  | error e => rw [h1] at hs; simp at hs
  | ok dss =>
    rw [h1] at hs
    simp only [Except.ok.injEq] at hs
    have hflat : (withItems items (root.walk []) dss).map (·.1) = ds := by
      rw [withItems_fst _ _ _ (mapE_mem h1).2.2, hs]
    have hmem := mem_withItems items (root.walk []) dss h1
    have hat : ∀ e ∈ root.walk [], At root e.1 e.2 := fun e he => (mem_walk_iff root e.1 e.2).mp he
    have hds : ∀ e ∈ root.walk [], ∀ own, fishDefsOf isRegex e.1 e.2 = .ok own → ∀ d ∈ own, d ∈ ds := by
      intro e he own ho d hd
      obtain ⟨own', h2, h3⟩ := (mapE_mem h1).1 e he
      rw [ho] at h3; cases h3
      rw [← hs]; exact List.mem_flatten.mpr ⟨_, h2, hd⟩
    obtain ⟨blocks, k1, k2⟩ := blocks_effect (prog := root.data.prog) (pre := pre) (funcs := scriptFunctions.filter (functionUsed extra ds))
      (fun f hf => (List.mem_filter.mp hf).1) (inline := inline) (stacking := stacking) (args := args) (items := items) (root.walk []) dss h1
      (by
        intro e he own ho
        constructor
        · intro x hx
          rw [List.mem_zipIdx_iff_getElem?] at hx
          obtain ⟨r1, r2, -⟩ := hw.defs e.1 e.2 (hat e he) own ho x.2 x.1 hx
          exact ⟨r1, r2⟩
        · intro d hd p hp
          obtain ⟨i, hi⟩ := List.getElem?_of_mem hd
          exact ⟨(hw.defs e.1 e.2 (hat e he) own ho i d hi).2.2 p hp, used_variable extra (hds e he own ho d hd) hp⟩)
      (by
        intro e he x hx
        obtain ⟨rs, hr⟩ := at_name (hat e he) x hx
        exact hw.comments rs x hr)
    simp only [hs', k1, bind, Except.bind]
    refine ⟨_, rfl, withItems items (root.walk []) dss, hflat, ?_, ?_⟩
    · intro x hx
      obtain ⟨e, he, own, i, r⟩ := hmem x hx
      exact ⟨e.1, e.2, own, i, hat e he, r⟩
    · intro a
      obtain ⟨vars, e1, env⟩ := head_effect hw.pre hw.prog.1 hw.prog.2 (functionUsed extra ds) a
      have e2 := wraps_effect (w := root.data.wraps) hw.wraps
        (a := { vars, entries := without root.data.prog a.entries ++ [exclusiveEntry root.data.prog], wraps := a.wraps }) env.prog
      obtain ⟨c, es, e3, -, c1, c2, c3⟩ := k2
        { vars, entries := without root.data.prog a.entries ++ [exclusiveEntry root.data.prog], wraps := a.wraps ++ wrapsOf root.data.prog root.data.wraps } env
      have e4 := (aliases_effect root.data.aliases (prog := root.data.prog)
        (fun hne => by
          obtain ⟨x, hx⟩ := List.exists_mem_of_ne_nil _ hne
          exact (hw.aliases x hx).2.1)
        (fun x hx => (hw.aliases x hx).1) c).joined
      have hentries : All2 (EntryFor stacking pre root.data.prog) (withItems items (root.walk []) dss) es := by
        refine all2_of c3 ?_
        intro x hx e he
        obtain ⟨e', he', own, i, r1, r2, r3⟩ := hmem x hx
        have hd : x.1 ∈ ds := hds e' he' own r1 _ (List.mem_of_getElem? r2)
        exact entry_for hw.pre (fun p hp => ⟨(hw.defs e'.1 e'.2 (hat e' he') own r1 i _ r2).2.2 p hp, used_variable extra hd hp⟩)
          (whenReads_def hw hs' hd) env he
      have hrun : FishRun.runScript a _ = some _ := Effect.script (Blocks.output (ts := ([fishHead pre root.data.prog (functionUsed extra ds),
        fishWraps root.data.wraps] ++ blocks ++ [fishAliases root.data.prog root.data.aliases]).map (joinWith ['\n'])) (by
          rw [List.map_append, List.map_append]
          exact blocks_append (blocks_append (.cons e1 (.cons e2 (.nil _))) e3) (.cons e4 (.nil _))))
      refine ⟨_, es, hrun, ?_, hentries, ?_⟩
      · show c.entries.filter _ = _
        rw [c2, List.filter_append, List.filter_append]
        have hkeep : ∀ l : List FishRun.Entry, (∀ e ∈ l, e.command = root.data.prog) →
            l.filter (fun e => decide (e.command ∉ root.data.aliases)) = l := by
          intro l hl
          rw [List.filter_eq_self]
          intro e he
          rw [hl e he]
          simp only [decide_eq_true_eq]
          intro hm
          exact (hw.aliases _ hm).2.2 rfl
        have hes : ∀ e ∈ es, e.command = root.data.prog := by
          clear e3 c2 c3 e4
          generalize withItems items (root.walk []) dss = des at hentries
          induction hentries with
          | nil => simp
          | cons h _ ih => intro e he; exact (List.mem_cons.mp he).elim (fun q => q ▸ h.command) (ih e)
        rw [hkeep es hes, hkeep [exclusiveEntry root.data.prog] (by simp [exclusiveEntry])]
        unfold without
        rw [List.filter_filter, List.append_assoc]
        congr 1
        congr 1
        funext e
        by_cases q1 : e.command = root.data.prog <;> by_cases q2 : e.command ∈ root.data.aliases <;> simp [q1, q2]
      · show c.wraps ++ _ = _
        rw [c1]
        congr 1
        congr 1
        unfold wrapsOf
        cases root.data.wraps with
        | none => rfl
        | some s => cases s <;> rfl

/-- Each condition calls the function that answers it, with the arguments that it reads. -/
theorem C87_condition_calls (pre : Str) (rx : Bool → Str → Str → Bool) (hid : List Str → Bool) (σ : QueryState) (q : FishPrim)
    (h : ∀ args, q = .prim (.hasOption args) → args.head? ≠ some (S "WITH_INCOMPLETE")) :
    fishCallSucceeds pre rx hid σ (realName pre q.variable :: q.args) = q.succeeds rx hid σ := by
  cases q with
  | hidden os => simp [fishCallSucceeds, FishPrim.variable, FishPrim.args, realName_inj, S, fishHasOption, FishPrim.succeeds]
  | prim p =>
    cases p with
    | optionIs args => simp [fishCallSucceeds, FishPrim.variable, FishPrim.args, realName_inj, S, FishPrim.succeeds]
    | optionMatch args => simp [fishCallSucceeds, FishPrim.variable, FishPrim.args, realName_inj, S, FishPrim.succeeds]
    | hasOption args =>
      have := h args rfl
      simp only [fishCallSucceeds, FishPrim.variable, FishPrim.args, realName_inj, fishHasOption, FishPrim.succeeds]
      rw [if_neg (by decide), if_neg (by decide), if_neg (by decide), if_pos trivial]
      exact if_neg this
    | posCount op n =>
      simp only [fishCallSucceeds, FishPrim.variable, FishPrim.args, realName_inj, fishNumOfPositionals, FishPrim.succeeds,
        number_intStr, Option.bind_some, test_name, Option.getD_some, QueryPrim.succeedsFish]
      rw [if_neg (by decide), if_neg (by decide), if_pos trivial]
    | posContains nc n values =>
      simp only [fishCallSucceeds, FishPrim.variable, FishPrim.args, realName_inj, FishPrim.succeeds]
      rw [if_neg (by decide), if_pos trivial]
      cases nc with
      | true => simp [fishPositionalContains, number_intStr]
      | false =>
        have hne : intStr n ≠ S "-i" := by
          intro e
          have := number_intStr n
          rw [e] at this
          revert this; simp only [show Decimal.number (S "-i") = none by decide +kernel]; simp
        have hb : (intStr n == S "-i") = false := by simpa using hne
        simp [fishPositionalContains, number_intStr, hb]

/-- What the completion offers while a command line is typed: the entries of the program whose conditions succeed give
the options that may be given there (see C68). The functions answer as they do for the words on the line
(`fishCallSucceeds`). -/
theorem C87_offered_partial (isRegex : Str → Bool) (rx : Bool → Str → Str → Bool) (hid : List Str → Bool) (inline stacking : Bool)
    (pre : Str) (extra : Str → Bool) (args : List Cmd → Cmd → Nat → List Str) (items : List Cmd → Cmd → Nat → List FishArgItem)
    (root : Cmd) (hw : Writable isRegex pre args items root) (hf : CleanFish root) (hp : PlainTree root)
    (ds : List FishDef) (hs : fishScript isRegex root = .ok ds)
    (hsafe : ∀ qs x, At root qs x → ∀ o ∈ x.data.options, WhenSafe isRegex o.when_)
    (its : List Item) (e : Ending)
    (hi : ItemsValid (fishKindAt (definedOptionTypes root).subcommands (fishTable root)) [] its)
    (hv : e.Valid (fishKindAt (definedOptionTypes root).subcommands (fishTable root) (its.flatMap Item.positionals)))
    (parents : List Cmd) (c : Cmd) (hr : Reached root (lineOf its e).positionals parents c)
    (hfin : FinalsAbove (lineOf its e) parents c)
    (hargs : NoOtherArguments root parents c (lineOf its e).positionals.length)
    (hinc : ∀ d ∈ ds, ∀ args, FishPrim.prim (.hasOption args) ∈ d.prims → args.head? ≠ some (S "WITH_INCOMPLETE")) :
    let p := fishQueryOf root (its.flatMap Item.words ++ e.words)
    ∃ text, fishScriptText isRegex inline stacking pre extra args root = .ok text ∧
      ∀ a : FishRun.State, ∃ b, FishRun.runScript a text = some b ∧
        ∀ w, (∃ x ∈ b.entries, x.command = root.data.prog ∧ x.Active (fishCallSucceeds pre rx hid ⟨p.having, p.positionals⟩) ∧ w ∈ x.options) ↔
          ∃ x ∈ inheritedFrom parents c, ∃ o ∈ x.2.data.options, w ∈ o.strings ∧
            MayBeGiven isRegex rx hid (lineOf its e) parents c x.2 o := by
  intro p
  have hans : ∀ d ∈ ds, ∀ q ∈ d.prims, fishCallSucceeds pre rx hid ⟨p.having, p.positionals⟩ (realName pre q.variable :: q.args) =
      q.succeeds rx hid ⟨p.having, p.positionals⟩ := by
    intro d hd q hq
    exact C87_condition_calls pre rx hid _ q (fun args e => hinc d hd args (e ▸ hq))
  have hprep : fishCallSucceeds pre rx hid ⟨p.having, p.positionals⟩ [realName pre (S "prepare")] = true := by simp [fishCallSucceeds]
  generalize hv' : fishCallSucceeds pre rx hid ⟨p.having, p.positionals⟩ = v at hans hprep ⊢
  obtain ⟨text, h1, des, h2, h3, h4⟩ := C87_script_partial isRegex inline stacking pre extra args items root hw ds hs
  refine ⟨text, h1, fun a => ?_⟩
  obtain ⟨b, es, k1, k2, k3, -⟩ := h4 a
  refine ⟨b, k1, fun w => ?_⟩
  have key := C68_typed_partial isRegex rx hid root hf hp ds hs hsafe its e hi hv parents c hr hfin hargs w
  simp only at key
  rw [← key]
  have hact : ∀ d ∈ ds, (d.active (fun q => v (realName pre q.variable :: q.args)) ↔ d.active (FishPrim.succeeds rx hid
      ⟨(fishQueryOf root (its.flatMap Item.words ++ e.words)).having, (fishQueryOf root (its.flatMap Item.words ++ e.words)).positionals⟩)) := by
    intro d hd
    obtain ⟨tss, ht⟩ := getConditions_ok d.conds d.when_
    unfold FishDef.active
    rw [ht]
    simp only [Except.ok.injEq, exists_eq_left']
    apply forall_congr'
    intro ts
    apply imp_congr_right
    intro hts
    rw [run_congr (fun q hq => hans d hd q ((mem_prims ht).mpr ⟨ts, hts, hq⟩))]
  have hright : ∀ x ∈ es, ∃ d ∈ des, EntryFor stacking pre root.data.prog d x := by
    clear k2 h2 h3 h4
    induction k3 with
    | nil => simp
    | @cons d x des es h _ ih =>
      intro y hy
      rcases List.mem_cons.mp hy with rfl | hy
      · exact ⟨d, by simp, h⟩
      · obtain ⟨d', m1, m2⟩ := ih y hy
        exact ⟨d', by simp [m1], m2⟩
  constructor
  · rintro ⟨x, hx, hc, ha, hw'⟩
    rw [k2] at hx
    rcases List.mem_append.mp hx with hx | hx
    · have := (List.mem_filter.mp hx).2
      simp [hc] at this
    · rcases List.mem_cons.mp hx with rfl | hx
      · simp [FishRun.Entry.options] at hw'
      · obtain ⟨d, hd, he⟩ := hright x hx
        have hm : d.1 ∈ ds := by rw [← h2]; exact List.mem_map.mpr ⟨d, hd, rfl⟩
        exact ⟨d.1, hm, (hact d.1 hm).mp ((he.active v).mp ha).2, (he.options w).mp hw'⟩
  · rintro ⟨d, hd, ha, hw'⟩
    rw [← h2] at hd
    obtain ⟨d', hd', rfl⟩ := List.mem_map.mp hd
    obtain ⟨x, hx, he⟩ := all2_left k3 hd'
    refine ⟨x, ?_, he.command, (he.active v).mpr ⟨hprep, (hact d'.1 (by rw [← h2]; exact hd)).mpr ha⟩, (he.options w).mpr hw'⟩
    rw [k2]
    simp [hx]

/-! ## Where the script is wrong -/

/-- The script of a program without commands, options or positionals. -/
def bareScript (prog : Str) (aliases : List Str) (wraps : Option Str) : Option Str :=
  (fishScriptText (fun _ => true) false true (S "_p") (fun _ => false) (fun _ _ _ => []) (.node { prog, aliases, wraps } none [])).toOption

/-- The script of a program with the option `-v`. -/
def optionScript (prog : Str) (aliases : List Str) : Option Str :=
  (fishScriptText (fun _ => true) false true (S "_p") (fun _ => false) (fun _ _ _ => [])
    (.node { prog, aliases, inheritOptions := .val false, options := [{ strings := [S "-v"], repeatable := .val true }] } none [])).toOption

/-- With an alias that is the name of the program the script erases what it has registered: nothing is left. -/
theorem C87_alias_is_program :
    (optionScript (S "prog") []).bind (fun t => (FishRun.runScript {} t).map (·.entries.length)) = some 2 ∧
    (optionScript (S "prog") [S "prog"]).bind (fun t => (FishRun.runScript {} t).map (·.entries.length)) = some 0 := by
  decide +kernel

/-- The name of the program is not quoted: with `'` in it, Fish cannot read the script. -/
theorem C87_quote_in_name : (bareScript (S "don't") [] none).bind FishCode.read = none ∧
    (bareScript (S "don't") [] none).isSome = true := by
  decide +kernel

/-- The aliases are not quoted: what follows a semicolon in one is run as a command. -/
theorem C87_alias_runs : ∃ ss, (bareScript (S "prog") [S "a;rm"] none).bind FishCode.read = some ss ∧
    FishCode.call [S "rm", S "-e"] ∈ ss := by
  refine ⟨_, by rfl, by decide +kernel⟩

/-- The same for the command that is wrapped. -/
theorem C87_wraps_runs : ∃ ss, (bareScript (S "prog") [] (some (S "git;rm"))).bind FishCode.read = some ss ∧
    FishCode.call [S "rm"] ∈ ss := by
  refine ⟨_, by rfl, by decide +kernel⟩

/-- The names of the commands stand in comments: what follows a line break in one is run as a command. -/
theorem C87_newline_runs : ∃ ss, (optionScript (S "a\nrm") []).bind FishCode.read = some ss ∧
    FishCode.call [S "rm"] ∈ ss := by
  refine ⟨_, by rfl, by decide +kernel⟩

/-! ## An example -/

/-- The subcommand of the example of C68, with descriptions. -/
def fishFileRun : Cmd := .node { prog := S "run", aliases := [S "r"], inheritOptions := .val false, positionals := [{ number := 1 }], options :=
  [{ strings := [S "--out"], complete := some [.str (S "file")], repeatable := .val false, help := some (S "don't \"guess\"") },
   { strings := [S "--force"], when_ := some (S "has_option --out"), repeatable := .val false }] } none []

/-- The program of the example, with an alias. -/
def fishFileRoot : Cmd := .node { prog := S "prog", aliases := [S "pr"], wraps := some (S "git"), inheritOptions := .val true, options :=
  [{ strings := [S "-v"], repeatable := .val true }, { strings := [S "--quiet"], groups := some [S "g"], repeatable := .val false },
   { strings := [S "--loud"], groups := some [S "g"], repeatable := .val false }] } (some 1) [fishFileRun]

/-- The arguments: `--out` takes files, the subcommands are offered. -/
def fishFileItems (parents : List Cmd) (_ : Cmd) (i : Nat) : List FishArgItem :=
  if parents.isEmpty then (if i = 3 then [.f, .a (S "run\tthe\\ntask r")] else [.f]) else (if i = 0 then [.F] else [.f])

/-- The arguments as words. -/
def fishFileArgs (parents : List Cmd) (c : Cmd) (i : Nat) : List Str := (fishFileItems parents c i).flatMap FishArgItem.words

/-- A test of `Writable.defs`. -/
def defReadsB (d : FishDef) (items : List FishArgItem) : Bool :=
  (d.short ++ d.long ++ d.old).all (fun s => fishReadable (nameOf s)) && d.target.description.all fishReadable &&
    items.all (fun | .a s => fishReadable s | _ => true) && d.prims.all (fun p => p.args.all (fun a => fishReadable a && !a.contains '`'))

theorem defReadsB_sound {d : FishDef} {items : List FishArgItem} (h : defReadsB d items = true) :
    DefReads d items ∧ ∀ p ∈ d.prims, ∀ a ∈ p.args, fishReadable a = true ∧ '`' ∉ a := by
  unfold defReadsB at h
  simp only [Bool.and_eq_true, List.all_eq_true, List.mem_append] at h
  obtain ⟨⟨⟨h1, h2⟩, h3⟩, h4⟩ := h
  refine ⟨⟨?_, ?_, ?_⟩, ?_⟩
  · rintro s (hs | hs | hs)
    · exact h1 s (.inl (.inl hs))
    · exact h1 s (.inl (.inr hs))
    · exact h1 s (.inr hs)
  · intro t ht
    rw [ht] at h2
    simpa using h2
  · intro s hs; exact h3 _ hs
  · intro p hp a ha
    have := h4 p hp a ha
    refine ⟨this.1, ?_⟩
    have := this.2
    simpa using this

/-- Which functions succeed after `prog --quiet r --out x`. -/
def fishFileAnswer : List Str → Bool :=
  let p := fishQueryOf fishFileRoot ([Item.word (S "--quiet"), .pos (S "r"), .sep (S "--out") (S "x")].flatMap Item.words)
  fishCallSucceeds (S "_p") (fun _ _ _ => false) (fun _ => false) ⟨p.having, p.positionals⟩

/-- What the script leaves behind when `prog` and `ls` have an entry before. -/
def fishFileResult : List (Str × List Str × Bool × Option Str) × List (Str × Str) :=
  ((fishScriptText (fun _ => true) false true (S "_p") (fun _ => false) fishFileArgs fishFileRoot).toOption.bind
    (fun t => (FishRun.runScript { entries := [{ command := S "prog" }, { command := S "ls" }] } t).map
      (fun b => (b.entries.map (fun e => (e.command, e.options, e.noFiles, e.arguments)), b.wraps)))).getD ([], [])

/-- A case of the theorems: the program of C68. The script registers an entry for the program and six for its options,
its subcommands and the positional; some answers of the functions. -/
theorem C87_example :
    Writable (fun _ => true) (S "_p") fishFileArgs fishFileItems fishFileRoot ∧
    (∃ ds, fishScript (fun _ => true) fishFileRoot = .ok ds ∧
      ∀ d ∈ ds, ∀ args, FishPrim.prim (.hasOption args) ∈ d.prims → args.head? ≠ some (S "WITH_INCOMPLETE")) ∧
    fishFileAnswer [S "_p__positional_contains", S "-i", S "1", S "RUN", S "R"] = true ∧
    fishFileAnswer [S "_p__num_of_positionals", S "-gt", S "1"] = false ∧
    fishFileResult.1 = [(S "ls", [], false, none), (S "prog", [], true, none), (S "prog", [S "-v"], true, none), (S "prog", [S "--quiet"], true, none),
        (S "prog", [S "--loud"], true, none), (S "prog", [], true, some (S "run\tthe\\ntask r")), (S "prog", [S "--out"], false, none),
        (S "prog", [S "--force"], true, none), (S "prog", [], true, none)] ∧
    fishFileResult.2 = [(S "prog", S "git"), (S "pr", S "prog")] := by
  have hall : ∀ parents c, At fishFileRoot parents c → (parents = [] ∧ c = fishFileRoot) ∨ (parents = [fishFileRoot] ∧ c = fishFileRun) := by
    intro parents c h
    induction h with
    | root => exact Or.inl ⟨rfl, rfl⟩
    | @child parents c d _ hd ih =>
      rcases ih with ⟨rfl, rfl⟩ | ⟨rfl, rfl⟩
      · right; exact ⟨rfl, by simpa [fishFileRoot, Cmd.children] using hd⟩
      · simp [fishFileRun, Cmd.children] at hd
  have hwhen : ∀ t ts, (some (S "has_option --out")) = some t → t ≠ [] → parseWhen (fun _ => true) t = .ok ts → ∃ e, Denotes ts e := by
    intro t ts ht _ h
    cases ht
    have : (parseWhen (fun _ => true) (S "has_option --out")).toOption = some [.cmd (.hasOption [S "--out"])] := by decide +kernel
    rw [h] at this
    simp only [Except.toOption, Option.some.injEq] at this
    subst this
    exact ⟨_, .pipe (.cmd _)⟩
  refine ⟨⟨by decide, by decide, ?_, ?_, ?_, ?_, ?_, ?_⟩, ?_, by decide +kernel, by decide +kernel, by decide +kernel, by decide +kernel⟩
  · intro s h; cases h; decide
  · intro x hx
    have : x = S "pr" := by simpa [fishFileRoot, Cmd.data] using hx
    subst this
    exact ⟨⟨by decide, by decide⟩, ⟨by decide, by decide⟩, by decide⟩
  · intro qs c h
    rcases hall _ _ h with ⟨rfl, rfl⟩ | ⟨rfl, rfl⟩ <;> decide
  · intro qs c h ds hd i d hi
    refine ⟨rfl, defReadsB_sound ?_⟩
    have key : ∀ e ∈ ds.zipIdx, defReadsB e.1 (fishFileItems qs c e.2) = true := by
      rcases hall _ _ h with ⟨rfl, rfl⟩ | ⟨rfl, rfl⟩
      · have h2 : (match fishDefsOf (fun _ => true) [] fishFileRoot with
            | .ok ds => ds.zipIdx.all (fun e => defReadsB e.1 (fishFileItems [] fishFileRoot e.2)) | .error _ => true) = true := by decide +kernel
        rw [hd] at h2
        exact List.all_eq_true.mp h2
      · have h2 : (match fishDefsOf (fun _ => true) [fishFileRoot] fishFileRun with
            | .ok ds => ds.zipIdx.all (fun e => defReadsB e.1 (fishFileItems [fishFileRoot] fishFileRun e.2)) | .error _ => true) = true := by
          decide +kernel
        rw [hd] at h2
        exact List.all_eq_true.mp h2
    exact key (d, i) (List.mem_zipIdx_iff_getElem?.mpr hi)
  · intro qs c h o ho t ts ht
    rcases hall _ _ h with ⟨rfl, rfl⟩ | ⟨rfl, rfl⟩
    · have : o.when_ = none := by
        have : ∀ o ∈ fishFileRoot.data.options, o.when_ = none := by decide
        exact this o ho
      rw [this] at ht; cases ht
    · have : o.when_ = none ∨ o.when_ = some (S "has_option --out") := by
        have : ∀ o ∈ fishFileRun.data.options, o.when_ = none ∨ o.when_ = some (S "has_option --out") := by decide
        exact this o ho
      rcases this with h1 | h1 <;> rw [h1] at ht
      · cases ht
      · exact hwhen t ts ht
  · intro qs c h p hp t ts ht
    rcases hall _ _ h with ⟨rfl, rfl⟩ | ⟨rfl, rfl⟩
    · simp [fishFileRoot, Cmd.data] at hp
    · simp [fishFileRun, Cmd.data] at hp; subst hp; cases ht
  · have h2 : (match fishScript (fun _ => true) fishFileRoot with
        | .error _ => false
        | .ok ds => ds.all (fun d => d.prims.all (fun q => match q with
          | .prim (.hasOption args) => decide (args.head? ≠ some (S "WITH_INCOMPLETE")) | _ => true))) = true := by decide +kernel
    cases hs : fishScript (fun _ => true) fishFileRoot with
    | error e => rw [hs] at h2; cases h2
    | ok ds =>
      rw [hs] at h2
      refine ⟨ds, rfl, ?_⟩
      intro d hd args hq
      simp only [List.all_eq_true] at h2
      have := h2 d hd _ hq
      simpa using this

end CC
