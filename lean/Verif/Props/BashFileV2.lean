import Verif.Lemmas.BashRunV2
import Verif.Props.BashFile
/-!
# C95: the text of the Bash parser, version 2, and the text that is generated
-/

namespace CC

/-- **C95** (version 2): the text of the parser is the template of the code, with the parts chosen by the preprocessor
that C01–C03 describe, for every choice of parts. -/
theorem C95_v2_template (p : Parts) :
    preprocess v2Template (v2Defines p) = .ok (v2Fill (S "%FIND_OPTION_CODE%\n") (S "%SUBCOMMAND_SWITCH_CODE%\n") p) :=
  BashText.template_v2 p

/-- **C95** (partial, version 2 of the parser): for every choice of parts and every command line with plain strings, the text
that is generated for the parser is a Bash program, and running it as a function on any words ends and leaves in the
variables exactly what the model of the parser (`bashParseV2`) finds. Missing: strings with characters that have a meaning
in Bash, variables that the parser uses itself, environments with references, and a single command for which the switch of
subcommands changes the command (`C95_v2_single`). -/
theorem C95_v2_parser_partial (p : Parts) (blocks : List Block) (cases : List SwitchCase)
    (hb : ∀ b ∈ blocks, PlainBashBlock b ∧ ∀ o ∈ b.opts, PlainBashOption2 o) (hc : ∀ c ∈ cases, PlainBashSwitch c)
    (hone : ∀ b, blocks = [b] → b.path = "root".toList ∧ (p.positionals = true → cases = []))
    (words : List Str) (cur : Str) (post : List Str) (e : BashText.Env) (he : CallEnv e words cur post) :
    ∃ n, ∀ fuel, n ≤ fuel → ∃ e', runText fuel (v2Text p blocks cases) e = some e' ∧
      ParsedInto2 p.positionals (bashParseV2 p blocks cases words cur post).log (bashParseV2 p blocks cases words cur post).positionals
        (bashParseV2 p blocks cases words cur post).endOfOptions e e' := by
  have hread := BashText.read_v2 p (fun b h => BashText.blockOk2 (hb b h).1 (hb b h).2) (fun c h => BashText.switchOk (hc c h))
  obtain ⟨prog, hw⟩ := he.array
  refine ⟨words.length + 2 + (words.map List.length).sum, fun fuel hf => ?_⟩
  have hlen : ∀ w ∈ words, w.length < fuel := by
    intro w hw
    have : w.length ≤ (words.map List.length).sum := length_le_sum hw
    omega
  obtain ⟨e', h1, h2, h3, h4, h5, h6, h7⟩ := BashText.v2_run (fuel := fuel) (fs := []) p blocks hb cases hc e [] he.refs hw he.cword (by omega) hlen
  have ht := BashText.textParse_eq p blocks cases words cur post hone
  rw [ht] at h4 h5 h7
  refine ⟨e', ?_, ?_, h5, h7, h6, h2, h3⟩
  · unfold runText
    rw [hread]
    exact h1
  · refine Eq.trans h4 ?_
    unfold BashText.posOf2 bashParseV2
    cases p.positionals <;> rfl

/-- The variables are determined. -/
theorem C95_v2_determined {k : Bool} {log : List (Str × Str)} {ps : List Str} {d : Bool} {e a b : BashText.Env}
    (ha : ParsedInto2 k log ps d e a) (hb : ParsedInto2 k log ps d e b) : a.vars = b.vars := by
  funext v
  by_cases h1 : v = S "POSITIONALS"
  · subst h1; rw [ha.posArray, hb.posArray]
  · by_cases h2 : v = S "END_OF_OPTIONS"
    · subst h2; rw [ha.endMark, hb.endMark]
    · by_cases h3 : v ∈ parserNames2
      · rw [ha.others v h3 h1 h2, hb.others v h3 h1 h2]
      · rw [ha.options v h3, hb.options v h3]

theorem single_block {root : Cmd} {blocks : List Block} (hb : bashBlocks root = .ok blocks) (hs : root.children = [] → root.sub = none) :
    ∀ b, blocks = [b] → b.path = "root".toList ∧ ((bashParts root).positionals = true → switchCases root = []) := by
  intro b h
  obtain ⟨h1, _⟩ := bashBlocks_eq hb
  obtain ⟨d, sb, ch⟩ := root
  have hch : ch = [] := by
    cases ch with
    | nil => rfl
    | cons c cs =>
      exfalso
      rw [h1] at h
      have := congrArg List.length h
      obtain ⟨d', s', ch'⟩ := c
      simp [Cmd.walk, Cmd.walkList] at this
      omega
  subst hch
  have hsub : sb = none := hs rfl
  subst hsub
  refine ⟨?_, fun _ => rfl⟩
  rw [h1] at h
  have : b = blockOf ([], .node d none []) := by
    have := (List.cons.inj h).1
    exact this.symm
  rw [this]
  rfl

/-- **C95** (partial, version 2), together with C46: for every clean tree of commands whose strings are plain, every line in
the documented forms that reaches a command and every word at the cursor, running the generated text leaves in the variable
of each option exactly the values given to this option on the line, in order, behind those it had. Missing: see
`C95_v2_parser_partial` and `C46_v2_partial`. -/
theorem C95_v2_tree_partial (root : Cmd) (blocks : List Block) (hb : bashBlocks root = .ok blocks)
    (hpb : ∀ b ∈ blocks, PlainBashBlock b ∧ ∀ o ∈ b.opts, PlainBashOption2 o) (hpc : ∀ c ∈ switchCases root, PlainBashSwitch c)
    (hs : root.children = [] → root.sub = none)
    (hc : CleanTree root) (hn : CleanNames root) (ho : CleanOptions root)
    (optAt : List Str → Str → Option Opt) (hopt : KnowsOptions root optAt)
    (its : List Item) (last : Ending) (cur : Str) (post : List Str) (parents : List Cmd) (c : Cmd)
    (hr : Reached root (its.flatMap Item.positionals) parents c)
    (hv : ItemsValid (fun ps s => (optAt ps s).map Opt.kind) [] its)
    (hl : last.Valid (fun s => (optAt (its.flatMap Item.positionals) s).map Opt.kind))
    (e : BashText.Env) (he : CallEnv e (its.flatMap Item.words ++ last.words) cur post) :
    ∃ n, ∀ fuel, n ≤ fuel → ∃ e', runText fuel (v2Text (bashParts root) blocks (switchCases root)) e = some e' ∧
      ParsedInto2 (bashParts root).positionals (itemEntries optAt [] its ++ lastEntries (optAt (its.flatMap Item.positionals)) cur last)
        (its.flatMap Item.positionals ++ endingPositionals cur post last) last.isDashes e e' := by
  obtain ⟨n, h⟩ := C95_v2_parser_partial (bashParts root) blocks (switchCases root) hpb hpc (single_block hb hs) _ cur post e he
  rw [C46_v2_partial root blocks hb hc hn ho optAt hopt its last cur post parents c hr hv hl] at h
  refine ⟨n, fun fuel hf => ?_⟩
  obtain ⟨e', h1, h2⟩ := h fuel hf
  refine ⟨e', h1, ?_, h2.endMark, h2.options, h2.others, h2.args, h2.saved⟩
  rw [h2.posArray]
  cases (bashParts root).positionals <;> rfl

/-- **C95** (partial, the text that is generated): of the two texts the shorter one is put into the script; whichever it is,
running it on such a line leaves in the variable of each option exactly the values given to this option, marks `--` and, if
the tree has positionals or subcommands, sets `POSITIONALS` to the positionals typed. Missing: see `C95_tree_partial` and
`C95_v2_tree_partial`. -/
theorem C95_generated_partial (root : Cmd) (blocks : List Block) (hb : bashBlocks root = .ok blocks)
    (hpb : ∀ b ∈ blocks, PlainBashBlock b ∧ ∀ o ∈ b.opts, PlainBashOption2 o) (hpc : ∀ c ∈ switchCases root, PlainBashSwitch c)
    (hs : root.children = [] → root.sub = none)
    (hc : CleanTree root) (hn : CleanNames root) (ho : CleanOptions root)
    (hf : ∀ parents c, At root parents c → FlagsOnce parents c)
    (optAt : List Str → Str → Option Opt) (hopt : KnowsOptions root optAt)
    (its : List Item) (last : Ending) (cur : Str) (post : List Str) (parents : List Cmd) (c : Cmd)
    (hr : Reached root (its.flatMap Item.positionals) parents c)
    (hv : ItemsValid (fun ps s => (optAt ps s).map Opt.kind) [] its)
    (hl : last.Valid (fun s => (optAt (its.flatMap Item.positionals) s).map Opt.kind))
    (e : BashText.Env) (he : CallEnv e (its.flatMap Item.words ++ last.words) cur post) :
    ∃ n, ∀ fuel, n ≤ fuel → ∃ e', runText fuel (parserText (bashParts root) blocks (switchCases root)) e = some e' ∧
      (∀ v, v ∉ parserNames2 → e'.vars v =
        extended (e.vars v) (recorded v (itemEntries optAt [] its ++ lastEntries (optAt (its.flatMap Item.positionals)) cur last))) ∧
      e'.vars (S "END_OF_OPTIONS") = .str (if last.isDashes then ['1'] else ['0']) ∧
      ((bashParts root).positionals = true →
        e'.vars (S "POSITIONALS") = .array (its.flatMap Item.positionals ++ endingPositionals cur post last)) := by
  have hchoice : parserText (bashParts root) blocks (switchCases root) = v1Text blocks (switchCases root) ∨
      parserText (bashParts root) blocks (switchCases root) = v2Text (bashParts root) blocks (switchCases root) := by
    unfold parserText
    split
    · exact Or.inl rfl
    · exact Or.inr rfl
  rcases hchoice with h | h
  · obtain ⟨n, h1⟩ := C95_tree_partial root blocks hb (fun b hm => (hpb b hm).1) hpc hc hn ho hf optAt hopt its last cur post parents c hr hv hl e he
    refine ⟨n, fun fuel hfu => ?_⟩
    obtain ⟨e', g1, g2⟩ := h1 fuel hfu
    rw [h]
    exact ⟨e', g1, fun v hvn => g2.options v (fun hm => hvn (List.mem_append_left _ hm)), g2.endMark, fun _ => g2.posArray⟩
  · obtain ⟨n, h1⟩ := C95_v2_tree_partial root blocks hb hpb hpc hs hc hn ho optAt hopt its last cur post parents c hr hv hl e he
    refine ⟨n, fun fuel hfu => ?_⟩
    obtain ⟨e', g1, g2⟩ := h1 fuel hfu
    rw [h]
    refine ⟨e', g1, g2.options, g2.endMark, fun hp => ?_⟩
    rw [g2.posArray, hp]; rfl

/-- The shorter text is chosen. -/
theorem C95_shorter (p : Parts) (blocks : List Block) (cases : List SwitchCase) :
    (parserText p blocks cases).length = min (v1Text blocks cases).length (v2Text p blocks cases).length := by
  unfold parserText
  split <;> omega

/-! ## A case that meets the hypotheses -/

/-- Strings whose last character is not part of a number meet the hypothesis about numbers. -/
theorem C95_no_numbers (strings : List Str)
    (h : ∀ s ∈ strings, ∀ c ∈ s.getLast?, ¬ (pyIsSpace c = true ∨ c.isDigit = true ∨ c = '_' ∨ c = '-' ∨ c = '+')) :
    NoNumericClash (fun w => w ∈ strings) := by
  intro a x y hx _ _ hxs _
  exfalso
  obtain ⟨n, hn⟩ := Option.isSome_iff_exists.1 hxs
  have hne : x ≠ [] := by
    rintro rfl
    rw [pyInt_nil] at hn; cases hn
  refine h _ hx (x.getLast hne) ?_ (pyInt_chars hn _ (List.getLast_mem hne))
  rw [List.getLast?_append, List.getLast?_eq_some_getLast hne]
  rfl

theorem example_plain2 : ∀ b ∈ exampleTextBlocks, PlainBashBlock b ∧ ∀ o ∈ b.opts, PlainBashOption2 o := by
  intro b hb
  refine ⟨example_plain.1 b hb, ?_⟩
  intro o ho
  have hp := (example_plain.1 b hb).opts o ho
  simp only [exampleTextBlocks, List.mem_cons, List.not_mem_nil, or_false] at hb
  rcases hb with rfl | rfl
  · simp only [List.mem_cons, List.not_mem_nil, or_false] at ho
    subst ho
    exact ⟨hp, by decide, by decide, C95_no_numbers _ (by decide)⟩
  · simp only [List.mem_cons, List.not_mem_nil, or_false] at ho
    subst ho
    exact ⟨hp, by decide, by decide, C95_no_numbers _ (by decide)⟩

/-- The example: in the line `prog x r -vofile ` with the cursor behind, the text of version 2 for the example tree puts
`file` into `OPT_out`, marks `OPT_v`, and has the positionals `x`, `r` and the empty word. -/
theorem C95_v2_example :
    ∀ e, CallEnv e [S "x", S "r", S "-vofile"] [] [] → ∃ n, ∀ fuel, n ≤ fuel →
      ∃ e', runText fuel (v2Text (bashParts exampleRoot) exampleTextBlocks (switchCases exampleRoot)) e = some e' ∧
        ParsedInto2 true [(S "OPT_v", S "_OPT_ISSET_"), (S "OPT_out", S "file")] [S "x", S "r", []] false e e' := by
  intro e he
  have := C95_v2_parser_partial (bashParts exampleRoot) exampleTextBlocks (switchCases exampleRoot) example_plain2 example_plain.2
    (by intro b h; cases h) _ [] [] e he
  have hp : bashParseV2 (bashParts exampleRoot) exampleTextBlocks (switchCases exampleRoot) [S "x", S "r", S "-vofile"] [] [] =
      { cmd := S "root:run", log := [(S "OPT_v", S "_OPT_ISSET_"), (S "OPT_out", S "file")], positionals := [S "x", S "r", []], endOfOptions := false } := by
    rfl
  rw [hp, show (bashParts exampleRoot).positionals = true from rfl] at this
  exact this

/-! ## Where the texts go wrong -/

/-- The local variables of the parser have their old values in the end, whatever it does. -/
theorem v2_locals {p : Parts} {blocks : List Block} {cases : List SwitchCase} {fuel : Nat} {e e' : BashText.Env} (hr : ∀ x y, e.vars x ≠ .ref y)
    (h : BashText.closure (BashText.exec fuel [] (BashText.v2Code p blocks cases)) [] e = some e') {v : Str} (hv : v ∈ BashText.localNames2) :
    e'.vars v = e.vars v := by
  unfold BashText.closure at h
  rw [Option.bind_eq_some_iff] at h
  obtain ⟨⟨e1, f⟩, h1, h2⟩ := h
  unfold BashText.v2Code at h1
  rw [BashText.head2_exec p _ (show ∀ x y, ({ e with args := [], saved := [] } : BashText.Env).vars x ≠ .ref y from hr)] at h1
  obtain ⟨l, hl⟩ := (BashText.exec_grows fuel _ [] (fun g hg => by cases hg)).1 _ _ _ h1
  rw [BashText.head2_saved] at hl
  have hs : e1.saved = l ++ [BashText.vArgs, BashText.vVar, BashText.vTrailing, BashText.vChar, BashText.vI, BashText.vArg, BashText.vArgi, BashText.vCmd].map (fun x => (x, e.vars x)) := by
    rw [hl]; simp
  have hres : (BashText.restore e1 e1.saved).vars v = e.vars v := by
    rw [hs, BashText.restore_append, BashText.restore_saved, if_pos]
    simp only [BashText.localNames2, List.mem_cons, List.not_mem_nil, or_false] at hv ⊢
    rcases hv with rfl | rfl | rfl | rfl | rfl | rfl | rfl | rfl <;> simp
  cases f <;> cases h2 <;> exact hres

/-- An option that is captured in the variable `VAR`: the parser of version 2 loses it on every line, that of version 1
records it, so it depends on the lengths of the two texts whether the option is seen. -/
theorem C95_v2_local_variable :
    let blocks : List Block := [{ path := S "root", inherits := true, opts := [{ longs := [S "--x"], shorts := [], kind := .flag, var := S "VAR" }] }]
    let p : Parts := { long := true, short := false, old := false, shortOptionals := false, positionals := false }
    (∀ words cur post e, CallEnv e words cur post → ∀ fuel e', runText fuel (v2Text p blocks []) e = some e' → e'.vars (S "VAR") = e.vars (S "VAR")) ∧
    ∀ e, CallEnv e [S "--x"] [] [] → e.vars (S "VAR") = .unset → ∃ n, ∀ fuel, n ≤ fuel → ∃ e', runText fuel (v1Text blocks []) e = some e' ∧
      e'.vars (S "VAR") = .array [S "_OPT_ISSET_"] := by
  intro blocks p
  have hplain : ∀ b ∈ blocks, PlainBashBlock b := by
    intro b hb
    simp only [blocks, List.mem_cons, List.not_mem_nil, or_false] at hb
    subst hb
    refine ⟨⟨by decide, by decide, by unfold PlainChar; decide⟩, ?_⟩
    intro o ho
    simp only [List.mem_cons, List.not_mem_nil, or_false] at ho
    subst ho
    refine ⟨by decide, by decide, ?_, (fun s hs => by cases hs)⟩
    intro l hl
    simp only [List.mem_cons, List.not_mem_nil, or_false] at hl
    subst hl
    exact ⟨by decide, by unfold PlainChar; decide⟩
  constructor
  · have hread := BashText.read_v2 (blocks := blocks) (cases := []) p (by
      intro b hb
      simp only [blocks, List.mem_cons, List.not_mem_nil, or_false] at hb
      subst hb
      refine ⟨⟨by decide +kernel, by decide, by decide⟩, ?_⟩
      intro o ho
      simp only [List.mem_cons, List.not_mem_nil, or_false] at ho
      subst ho
      exact ⟨by decide, ⟨by decide +kernel, by decide, by decide⟩⟩) (by intro c hc; cases hc)
    intro words cur post e he fuel e' h
    unfold runText at h
    rw [hread] at h
    exact v2_locals he.refs h (by decide)
  · intro e he hu
    obtain ⟨n, h⟩ := C95_parser_partial blocks [] hplain (by intro c hc; cases hc) _ [] [] e he
    refine ⟨n, fun fuel hf => ?_⟩
    obtain ⟨e', h1, h2⟩ := h fuel hf
    refine ⟨e', h1, ?_⟩
    rw [h2.options (S "VAR") (by decide), hu]
    rfl

/-- A single command that does not inherit options, with a list of subcommands that is empty: the model of the parser knows
no options behind a positional, but the text does, since it does not check the command. -/
theorem C95_v2_single :
    let b : Block := { path := S "root", inherits := false, opts := [{ longs := [S "--x"], shorts := [], kind := .flag, var := S "OPT_x" }] }
    let cases : List SwitchCase := [{ path := S "root", num := 1, names := [] }]
    let p : Parts := { long := true, short := false, old := false, shortOptionals := false, positionals := true }
    (bashParseV2 p [b] cases [S "a", S "--x"] [] []).log = [] ∧
    (BashText.textParseV2 p [b] cases [S "a", S "--x"] [] []).log = [(S "OPT_x", S "_OPT_ISSET_")] := by
  refine ⟨by rfl, by rfl⟩

end CC
