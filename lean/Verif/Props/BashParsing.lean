import Verif.Lemmas.BashParsing
import Verif.Spec.BashParsed
import Verif.Props.BashFileV2
/-!
# C96: the values of options come from the command line alone, and nothing is left behind
-/

namespace CC

/-- Functions that are texts give back what they have made local. -/
theorem C96_text_function (fuel : Nat) (t : Str) (args : List Str) (e e' : BashText.Env) (h : textFunction fuel t args e = some e') :
    e'.saved = e.saved := by
  unfold textFunction at h
  rw [Option.bind_eq_some_iff] at h
  obtain ⟨code, _, h2⟩ := h
  exact BashText.closure_keeps _ h2

/-- The name of the parser is one of a function if the prefix of the script is one. -/
theorem C96_name {pre : Str} (h : FunctionName pre) : FunctionName (realName pre (S "parse_commandline")) := by
  obtain ⟨h1, h2⟩ := h
  cases pre with
  | nil => cases h2
  | cons c pre =>
    refine ⟨?_, h2⟩
    simp only [BashText.isName, realName, List.cons_append, Bool.and_eq_true] at h1 ⊢
    refine ⟨h1.1, ?_⟩
    have h3 := h1.2
    simp only [List.all_cons, List.all_append, Bool.and_eq_true] at h3 ⊢
    exact ⟨h3.1, ⟨h3.2, by decide⟩, by decide⟩

theorem captured_iff {root : Cmd} (v : Str) : v ∈ captureNames root ↔ ∃ parents c, At root parents c ∧ ∃ o ∈ c.data.options, captureVariable o = v := by
  unfold captureNames
  rw [List.mem_flatMap]
  constructor
  · rintro ⟨e, h1, h2⟩
    obtain ⟨o, h3, h4⟩ := List.mem_map.mp h2
    exact ⟨e.1, e.2, (mem_walk_iff root e.1 e.2).mp h1, o, h3, h4⟩
  · rintro ⟨ps, c, h1, o, h3, h4⟩
    exact ⟨(ps, c), (mem_walk_iff root ps c).mpr h1, List.mem_map.mpr ⟨o, h3, h4⟩⟩

/-- The variables of the options of the tree. -/
theorem captured_of {root : Cmd} {blocks : List Block} (hb : bashBlocks root = .ok blocks) {v : Str} (h : v ∈ captureNames root) :
    ∃ b ∈ blocks, ∃ o ∈ b.opts, o.var = v := by
  obtain ⟨ps, c, hat, o, ho, rfl⟩ := (captured_iff v).mp h
  refine ⟨blockOf (ps, c), ?_, boptOf (ps, c) o, ?_, rfl⟩
  · rw [(bashBlocks_eq hb).1]
    refine List.mem_map.mpr ⟨(ps, c), ?_, rfl⟩
    simp only [List.mem_reverse]
    exact (mem_walk_iff root ps c).mpr hat
  · exact List.mem_map.mpr ⟨o, (ownOptions_mem hat o).mpr ho, rfl⟩

theorem known_captured {root : Cmd} {parents : List Cmd} {c : Cmd}
    (hat : At root parents c) {s : Str} {o : Opt} (h : KnownOption parents c s o) : captureVariable o ∈ captureNames root := by
  obtain ⟨l1, e, l2, h1, h2, _⟩ := h
  have he : At root e.1 e.2 := inheritedFrom_at hat e (by rw [h1]; simp)
  exact (captured_iff _).mpr ⟨e.1, e.2, he, o, h2.1, rfl⟩

theorem entry_captured {root : Cmd}
    {optAt : List Str → Str → Option Opt} (hopt : KnowsOptions root optAt) {ps : List Str} {parents : List Cmd} {c : Cmd}
    (hr : Reached root ps parents c) (hat : At root parents c) (o : Str × Option Str) :
    (optionEntry (optAt ps) o).1 = [] ∨ (optionEntry (optAt ps) o).1 ∈ captureNames root := by
  unfold optionEntry
  cases h : optAt ps o.1 with
  | none => exact Or.inl rfl
  | some x => exact Or.inr (known_captured hat ((hopt ps parents c hr o.1 x).mp h))

theorem entries_captured {root : Cmd} (hc : CleanTree root)
    {optAt : List Str → Str → Option Opt} (hopt : KnowsOptions root optAt) : ∀ (its : List Item) (ps : List Str) (parents : List Cmd) (c : Cmd),
    Reached root (ps ++ its.flatMap Item.positionals) parents c → ∀ en ∈ itemEntries optAt ps its, en.1 = [] ∨ en.1 ∈ captureNames root
  | [], _, _, _, _, en, h => by simp [itemEntries] at h
  | it :: its, ps, parents, c, hr, en, h => by
    rw [itemEntries, List.mem_append] at h
    rcases h with h | h
    · obtain ⟨qs, x, hq⟩ := reached_prefix ((reached_iff hc _ _ _).mp hr) ps (List.prefix_append _ _)
      obtain ⟨o, _, rfl⟩ := List.mem_map.mp h
      exact entry_captured hopt ((reached_iff hc _ _ _).mpr hq) (reached_at hq) o
    · refine entries_captured hc hopt its (ps ++ it.positionals) parents c ?_ en h
      rw [List.append_assoc]; exact hr

theorem log_captured {root : Cmd} (hc : CleanTree root)
    {optAt : List Str → Str → Option Opt} (hopt : KnowsOptions root optAt) (its : List Item) (last : Ending) (cur : Str) {parents : List Cmd} {c : Cmd}
    (hr : Reached root (its.flatMap Item.positionals) parents c) :
    ∀ en ∈ itemEntries optAt [] its ++ lastEntries (optAt (its.flatMap Item.positionals)) cur last, en.1 = [] ∨ en.1 ∈ captureNames root := by
  intro en h
  rw [List.mem_append] at h
  rcases h with h | h
  · exact entries_captured hc hopt its [] parents c hr en h
  · have hat : At root parents c := reached_at ((reached_iff hc _ _ _).mp hr)
    unfold lastEntries at h
    rw [List.mem_append] at h
    rcases h with h | h
    · obtain ⟨o, _, rfl⟩ := List.mem_map.mp h
      exact entry_captured hopt hr hat o
    · cases hi : last.incomplete with
      | none => simp [hi] at h
      | some n =>
        simp only [hi, Option.map_some, Option.toList_some, List.mem_singleton] at h
        subst h
        exact entry_captured hopt hr hat _

theorem recorded_none {log : List (Str × Str)} {names : List Str} (h : ∀ en ∈ log, en.1 = [] ∨ en.1 ∈ names) {v : Str} (hv : v ≠ []) (hn : v ∉ names) :
    recorded v log = [] := by
  unfold recorded
  rw [List.map_eq_nil_iff, List.filter_eq_nil_iff]
  intro en hen
  simp only [decide_eq_true_eq]
  rintro rfl
  rcases h en hen with h | h
  · exact hv h
  · exact hn h

theorem declared_nodup {root : Cmd} (h : ∀ v ∈ captureNames root, v ∉ parserNames) : (BashText.declared root).Nodup := by
  unfold BashText.declared
  have hu := C40_uniq_nodup (captureNames root)
  have hm : ∀ v, v ∈ parserNames → v ∉ uniq (captureNames root) := fun v hv hm => h v ((C40_uniq_mem _ v).mp hm) hv
  rw [List.nodup_cons, List.nodup_cons]
  refine ⟨?_, hm _ (by decide), hu⟩
  rw [List.mem_cons, not_or]
  exact ⟨by decide, hm _ (by decide)⟩

theorem declared_mem {root : Cmd} (v : Str) : v ∈ BashText.declared root ↔ v = S "END_OF_OPTIONS" ∨ v = S "POSITIONALS" ∨ v ∈ captureNames root := by
  unfold BashText.declared
  rw [List.mem_cons, List.mem_cons, C40_uniq_mem]

/-- The environment of the parser is one that it is called with, if no option has a variable with a name of the parser. -/
theorem declared_env {root : Cmd} (h : ∀ v ∈ captureNames root, v ∉ parserNames) {e : BashText.Env} {words : List Str} {cur : Str} {post : List Str}
    (he : CallEnv e words cur post) : CallEnv (BashText.declareAll e (BashText.declared root)) words cur post := by
  have hn : ∀ v ∈ parserNames, v ≠ S "END_OF_OPTIONS" → v ≠ S "POSITIONALS" → v ∉ BashText.declared root := by
    intro v hv h1 h2 hm
    rcases (declared_mem v).mp hm with h3 | h3 | h3
    · exact h1 h3
    · exact h2 h3
    · exact h v h3 hv
  refine ⟨?_, ?_, ?_⟩
  · intro x y
    rw [BashText.declareAll_vars]
    split
    · intro h; cases h
    · exact he.refs x y
  · obtain ⟨prog, hp⟩ := he.array
    exact ⟨prog, by rw [BashText.declareAll_vars, if_neg (hn _ (by decide) (by decide) (by decide))]; exact hp⟩
  · rw [BashText.declareAll_vars, if_neg (hn _ (by decide) (by decide) (by decide))]; exact he.cword

/-- **C96** (partial): when the completion function has declared its variables and called the parser, every variable of an
option holds the values of that option on the command line and nothing else, `END_OF_OPTIONS` and `POSITIONALS` are as the
command line says, and every other variable is as it was. This is so whatever the variables were before. Missing: what is
missing in C95. -/
theorem C96_values_partial (root : Cmd) (blocks : List Block) (hb : bashBlocks root = .ok blocks)
    (hpb : ∀ b ∈ blocks, PlainBashBlock b ∧ ∀ o ∈ b.opts, PlainBashOption2 o) (hpc : ∀ c ∈ switchCases root, PlainBashSwitch c)
    (hs : root.children = [] → root.sub = none)
    (hc : CleanTree root) (hn : CleanNames root) (ho : CleanOptions root)
    (hf : ∀ parents c, At root parents c → FlagsOnce parents c)
    (optAt : List Str → Str → Option Opt) (hopt : KnowsOptions root optAt)
    (its : List Item) (last : Ending) (cur : Str) (post : List Str) (parents : List Cmd) (c : Cmd)
    (hr : Reached root (its.flatMap Item.positionals) parents c)
    (hv : ItemsValid (fun ps s => (optAt ps s).map Opt.kind) [] its)
    (hl : last.Valid (fun s => (optAt (its.flatMap Item.positionals) s).map Opt.kind))
    (width : Int) (f : Str) (hname : FunctionName f)
    (e : BashText.Env) (he : CallEnv e (its.flatMap Item.words ++ last.words) cur post) :
    ∃ code n, BashText.read (parsingText width root f) = some code ∧ ∀ fuel, n ≤ fuel → ∃ e',
      BashText.exec fuel [(f, textFunction fuel (parserText (bashParts root) blocks (switchCases root)))] code e = some (e', .next) ∧
      (∀ v ∈ captureNames root, e'.vars v =
        onlyTyped (recorded v (itemEntries optAt [] its ++ lastEntries (optAt (its.flatMap Item.positionals)) cur last))) ∧
      e'.vars (S "END_OF_OPTIONS") = .str (if last.isDashes then ['1'] else ['0']) ∧
      ((bashParts root).positionals = true →
        e'.vars (S "POSITIONALS") = .array (its.flatMap Item.positionals ++ endingPositionals cur post last)) ∧
      ∀ v, BashText.isName v = true → v ∉ captureNames root → v ≠ S "END_OF_OPTIONS" → v ≠ S "POSITIONALS" → e'.vars v = e.vars v := by
  have hplain : ∀ v ∈ captureNames root, BashText.isName v = true ∧ v ∉ parserNames ∧ v ∉ parserNames2 := by
    intro v hvm
    obtain ⟨b, h1, o, h2, rfl⟩ := captured_of hb hvm
    have hp := ((hpb b h1).1.opts o h2)
    refine ⟨hp.var, hp.own, ?_⟩
    intro hm
    rcases List.mem_append.mp hm with hm | hm
    · exact hp.own hm
    · refine ((hpb b h1).2 o h2).var ?_
      simp only [List.mem_cons, List.not_mem_nil, or_false] at hm ⊢
      rcases hm with h | h
      · exact Or.inl h
      · exact Or.inr (Or.inl h)
  have hread := BashText.read_parsing width (fun v h => (hplain v h).1) hname.1 hname.2
  have he2 := declared_env (fun v h => (hplain v h).2.1) he
  have hlog := log_captured hc hopt its last cur hr
  have key : ∃ n, ∀ fuel, n ≤ fuel → ∃ e', runText fuel (parserText (bashParts root) blocks (switchCases root)) (BashText.declareAll e (BashText.declared root)) = some e' ∧
      (∀ v, v ∉ parserNames2 → e'.vars v =
        extended ((BashText.declareAll e (BashText.declared root)).vars v) (recorded v (itemEntries optAt [] its ++ lastEntries (optAt (its.flatMap Item.positionals)) cur last))) ∧
      e'.vars (S "END_OF_OPTIONS") = .str (if last.isDashes then ['1'] else ['0']) ∧
      ((bashParts root).positionals = true →
        e'.vars (S "POSITIONALS") = .array (its.flatMap Item.positionals ++ endingPositionals cur post last)) ∧
      (∀ v ∈ parserNames2, v ≠ S "POSITIONALS" → v ≠ S "END_OF_OPTIONS" → e'.vars v = (BashText.declareAll e (BashText.declared root)).vars v) := by
    have hchoice : parserText (bashParts root) blocks (switchCases root) = v1Text blocks (switchCases root) ∨
        parserText (bashParts root) blocks (switchCases root) = v2Text (bashParts root) blocks (switchCases root) := by
      unfold parserText
      split
      · exact Or.inl rfl
      · exact Or.inr rfl
    rcases hchoice with h | h
    · obtain ⟨n, h1⟩ := C95_tree_partial root blocks hb (fun b hm => (hpb b hm).1) hpc hc hn ho hf optAt hopt its last cur post parents c hr hv hl _ he2
      refine ⟨n, fun fuel hfu => ?_⟩
      obtain ⟨e', g1, g2⟩ := h1 fuel hfu
      rw [h]
      refine ⟨e', g1, fun v hvn => g2.options v (fun hm => hvn (List.mem_append_left _ hm)), g2.endMark, fun _ => g2.posArray, ?_⟩
      intro v hvm h1 h2
      rcases List.mem_append.mp hvm with hvm1 | hvm1
      · exact g2.others v hvm1 h1 h2
      · have hne : v ≠ [] ∧ v ∉ parserNames := by
          simp only [List.mem_cons, List.not_mem_nil, or_false] at hvm1
          rcases hvm1 with rfl | rfl <;> decide
        rw [g2.options v hne.2, recorded_none hlog hne.1 (fun hm => (hplain v hm).2.2 hvm)]
        rfl
    · obtain ⟨n, h1⟩ := C95_v2_tree_partial root blocks hb hpb hpc hs hc hn ho optAt hopt its last cur post parents c hr hv hl _ he2
      refine ⟨n, fun fuel hfu => ?_⟩
      obtain ⟨e', g1, g2⟩ := h1 fuel hfu
      rw [h]
      refine ⟨e', g1, g2.options, g2.endMark, fun hp => ?_, g2.others⟩
      rw [g2.posArray, hp]; rfl
  obtain ⟨n, hk⟩ := key
  refine ⟨_, n, hread, fun fuel hfu => ?_⟩
  obtain ⟨e', g1, g2, g3, g4, g5⟩ := hk fuel hfu
  refine ⟨e', ?_, ?_, g3, g4, ?_⟩
  · rw [BashText.exec_locals, ← BashText.append_done (BashText.callCode f), BashText.exec_call]
    show Option.bind (runText fuel (parserText (bashParts root) blocks (switchCases root)) _) _ = _
    rw [g1]
    exact BashText.exec_done (fuel := fuel) (fs := [(f, textFunction fuel (parserText (bashParts root) blocks (switchCases root)))]) _
  · intro v hvm
    rw [g2 v (hplain v hvm).2.2, BashText.declareAll_vars, if_pos ((declared_mem v).mpr (Or.inr (Or.inr hvm)))]
    unfold extended onlyTyped
    rfl
  · intro v hnm hvm h1 h2
    have hd : v ∉ BashText.declared root := by
      rw [declared_mem, not_or, not_or]; exact ⟨h1, h2, hvm⟩
    by_cases hp : v ∈ parserNames2
    · rw [g5 v hp h2 h1, BashText.declareAll_vars, if_neg hd]
    · rw [g2 v hp, recorded_none hlog (BashText.isName_ne hnm) hvm, BashText.declareAll_vars, if_neg hd]
      rfl

/-- **C96**: whatever the rest of the completion function does, and whatever the parser and the other functions do, when
the completion function has ended the variables of the options, `END_OF_OPTIONS` and `POSITIONALS` are as they were before
it was called. This is for every tree whose options have names of variables of their own. -/
theorem C96_left (root : Cmd) (hb : ∀ v ∈ captureNames root, BashText.isName v = true ∧ v ∉ parserNames)
    (width : Int) (f : Str) (hname : FunctionName f) (fs : BashText.Funs) (hfs : EndsItsLocals fs) (rest : BashText.Code)
    (fuel : Nat) (args : List Str) (e e' : BashText.Env) (code : BashText.Code) (hread : BashText.read (parsingText width root f) = some code)
    (h : BashText.closure (BashText.exec fuel fs (code ++ rest)) args e = some e') :
    ∀ v, v ∈ captureNames root ∨ v = S "END_OF_OPTIONS" ∨ v = S "POSITIONALS" → e'.vars v = e.vars v := by
  intro v hv
  rw [BashText.read_parsing width (fun v h => (hb v h).1) hname.1 hname.2] at hread
  cases hread
  unfold BashText.closure at h
  rw [Option.bind_eq_some_iff] at h
  obtain ⟨⟨e1, fl⟩, h1, h2⟩ := h
  rw [BashText.append_assoc', BashText.exec_locals] at h1
  obtain ⟨l, hl⟩ := (BashText.exec_grows fuel _ fs hfs).1 _ _ _ h1
  rw [BashText.declareAll_saved _ _ (declared_nodup (fun v h => (hb v h).2))] at hl
  have hmem : v ∈ (BashText.declared root).reverse := by
    rw [List.mem_reverse, declared_mem]
    rcases hv with h | h | h
    · exact Or.inr (Or.inr h)
    · exact Or.inl h
    · exact Or.inr (Or.inl h)
  have hres : (BashText.restore e1 e1.saved).vars v = e.vars v := by
    rw [hl, List.append_nil, BashText.restore_append, BashText.restore_saved, if_pos hmem]
  cases fl <;> cases h2 <;> exact hres

/-- **C96** (partial): what a completion finds does not depend on the variables of the shell: two runs for the same command
line agree on all variables that the completion function reads of it. Missing: what is missing in C95. -/
theorem C96_alone_partial (root : Cmd) (blocks : List Block) (hb : bashBlocks root = .ok blocks)
    (hpb : ∀ b ∈ blocks, PlainBashBlock b ∧ ∀ o ∈ b.opts, PlainBashOption2 o) (hpc : ∀ c ∈ switchCases root, PlainBashSwitch c)
    (hs : root.children = [] → root.sub = none)
    (hc : CleanTree root) (hn : CleanNames root) (ho : CleanOptions root)
    (hf : ∀ parents c, At root parents c → FlagsOnce parents c)
    (optAt : List Str → Str → Option Opt) (hopt : KnowsOptions root optAt)
    (its : List Item) (last : Ending) (cur : Str) (post : List Str) (parents : List Cmd) (c : Cmd)
    (hr : Reached root (its.flatMap Item.positionals) parents c)
    (hv : ItemsValid (fun ps s => (optAt ps s).map Opt.kind) [] its)
    (hl : last.Valid (fun s => (optAt (its.flatMap Item.positionals) s).map Opt.kind))
    (width width' : Int) (f : Str) (hname : FunctionName f)
    (e₁ e₂ : BashText.Env) (he₁ : CallEnv e₁ (its.flatMap Item.words ++ last.words) cur post)
    (he₂ : CallEnv e₂ (its.flatMap Item.words ++ last.words) cur post) :
    ∃ code n, BashText.read (parsingText width root f) = some code ∧ BashText.read (parsingText width' root f) = some code ∧
      ∀ fuel, n ≤ fuel → ∃ e₁' e₂',
      BashText.exec fuel [(f, textFunction fuel (parserText (bashParts root) blocks (switchCases root)))] code e₁ = some (e₁', .next) ∧
      BashText.exec fuel [(f, textFunction fuel (parserText (bashParts root) blocks (switchCases root)))] code e₂ = some (e₂', .next) ∧
      ∀ v, v ∈ captureNames root ∨ v = S "END_OF_OPTIONS" ∨ (v = S "POSITIONALS" ∧ (bashParts root).positionals = true) → e₁'.vars v = e₂'.vars v := by
  obtain ⟨c1, n1, r1, h1⟩ := C96_values_partial root blocks hb hpb hpc hs hc hn ho hf optAt hopt its last cur post parents c hr hv hl width f hname e₁ he₁
  obtain ⟨c2, n2, r2, h2⟩ := C96_values_partial root blocks hb hpb hpc hs hc hn ho hf optAt hopt its last cur post parents c hr hv hl width' f hname e₂ he₂
  have hnames : ∀ v ∈ captureNames root, BashText.isName v = true := by
    intro v hvm
    obtain ⟨b, g1, o, g2, rfl⟩ := captured_of hb hvm
    exact ((hpb b g1).1.opts o g2).var
  have hcode : c1 = c2 := by
    rw [BashText.read_parsing _ hnames hname.1 hname.2] at r1 r2
    rw [← Option.some.inj r1, ← Option.some.inj r2]
  subst hcode
  refine ⟨c1, max n1 n2, r1, r2, fun fuel hfu => ?_⟩
  obtain ⟨e1, a1, a2, a3, a4, _⟩ := h1 fuel (by omega)
  obtain ⟨e2, b1, b2, b3, b4, _⟩ := h2 fuel (by omega)
  refine ⟨e1, e2, a1, b1, ?_⟩
  rintro v (hvm | rfl | ⟨rfl, hp⟩)
  · rw [a2 v hvm, b2 v hvm]
  · rw [a3, b3]
  · rw [a4 hp, b4 hp]

/-! ## A case that meets the hypotheses -/

/-- The example: for the tree `prog [-v] FILE run [-o OUT]`, the lines that are generated for a narrow page and for a wide
one, and what the variables hold behind them for the line `prog x r -vofile `, whatever they held before. -/
theorem C96_example : parsingText 24 exampleRoot (S "_prog__parse") = S "local END_OF_OPTIONS POSITIONALS\nlocal -a OPT_v OPT_out\n_prog__parse" ∧
    parsingText 23 exampleRoot (S "_prog__parse") = S "local END_OF_OPTIONS POSITIONALS\nlocal -a OPT_v\nlocal -a OPT_out\n_prog__parse" ∧
    FunctionName (S "_prog__parse") ∧ captureNames exampleRoot = [S "OPT_v", S "OPT_out"] ∧
    (∀ v ∈ captureNames exampleRoot, BashText.isName v = true ∧ v ∉ parserNames) ∧
    ∀ e, CallEnv e [S "x", S "r", S "-vofile"] [] [] → ∃ code n, BashText.read (parsingText 23 exampleRoot (S "_prog__parse")) = some code ∧
      ∀ fuel, n ≤ fuel → ∃ e', BashText.exec fuel [(S "_prog__parse",
          textFunction fuel (parserText (bashParts exampleRoot) exampleTextBlocks (switchCases exampleRoot)))] code e = some (e', .next) ∧
        e'.vars (S "OPT_v") = .array [S "_OPT_ISSET_"] ∧ e'.vars (S "OPT_out") = .array [S "file"] ∧
        e'.vars (S "POSITIONALS") = .array [S "x", S "r", []] ∧ e'.vars (S "HOME") = e.vars (S "HOME") := by
  have hname : FunctionName (S "_prog__parse") := ⟨by decide, by decide⟩
  refine ⟨by rfl, by rfl, hname, by rfl, by decide, ?_⟩
  intro e he
  obtain ⟨hc, hn, ho, hf, _, hr, optAt, hopt, hv⟩ := C46_example
  have hb : bashBlocks exampleRoot = .ok exampleTextBlocks := C95_example.1
  have hlog := C46_v2_partial exampleRoot exampleTextBlocks hb hc hn ho optAt hopt _ .done [] [] _ _ hr hv trivial
  have hp : bashParseV2 (bashParts exampleRoot) exampleTextBlocks (switchCases exampleRoot) [S "x", S "r", S "-vofile"] [] [] =
      { cmd := S "root:run", log := [(S "OPT_v", S "_OPT_ISSET_"), (S "OPT_out", S "file")], positionals := [S "x", S "r", []], endOfOptions := false } := by
    rfl
  have hlog2 := congrArg BState.log (hp.symm.trans hlog)
  have hpos := congrArg BState.positionals (hp.symm.trans hlog)
  obtain ⟨code, n, h1, h2⟩ := C96_values_partial exampleRoot exampleTextBlocks hb example_plain2 example_plain.2 (by intro h; cases h) hc hn ho hf optAt hopt
    _ .done [] [] _ _ hr hv trivial 23 _ hname e he
  refine ⟨code, n, h1, fun fuel hfu => ?_⟩
  obtain ⟨e', g1, g2, g3, g4, g5⟩ := h2 fuel hfu
  simp only at hlog2 hpos
  rw [← hlog2] at g2
  refine ⟨e', g1, ?_, ?_, ?_, ?_⟩
  · rw [g2 _ (by decide)]; rfl
  · rw [g2 _ (by decide)]; rfl
  · rw [g4 rfl]
    rw [show (bashParts exampleRoot).positionals = true from rfl, if_pos rfl] at hpos
    rw [← hpos]
  · exact g5 _ (by decide) (by decide) (by decide) (by decide)

/-! ## Where it goes wrong -/

/-- A program whose option `--width` is captured in the variable `cword`. -/
def cwordRoot : Cmd := .node { prog := S "prog", options := [{ strings := [S "--width"], capture := some (S "cword") }] } none []

/-- An option that is captured in `cword` takes the place of the cursor away: the variable is made local before the parser
is called, which finds no word before the cursor then. Here the parser is one that does nothing, to see what it is given. -/
theorem C96_cword (width : Int) (e : BashText.Env) : ∃ code e', BashText.read (parsingText width cwordRoot (S "_prog__parse")) = some code ∧
    ∀ fuel, BashText.exec fuel [(S "_prog__parse", fun _ e => some e)] code e = some (e', .next) ∧ e'.vars (S "cword") = .unset := by
  have hc : captureNames cwordRoot = [S "cword"] := by rfl
  refine ⟨_, BashText.declareAll e (BashText.declared cwordRoot), BashText.read_parsing width (by rw [hc]; decide) (by decide) (by decide), ?_⟩
  intro fuel
  constructor
  · rw [BashText.exec_locals, ← BashText.append_done (BashText.callCode _), BashText.exec_call]
    exact BashText.exec_done (fuel := fuel) (fs := [(S "_prog__parse", fun _ e => some e)]) _
  · rw [BashText.declareAll_vars, if_pos]
    rw [declared_mem, hc]; decide

end CC
