import Verif.Lemmas.BashLocal
import Verif.Props.BashParser
/-!
# C95: the text of the Bash parser does what the parser is meant to do
-/

namespace CC

theorem length_le_sum {w : Str} : ∀ {words : List Str}, w ∈ words → w.length ≤ (words.map List.length).sum
  | x :: xs, h => by
    rcases List.mem_cons.mp h with rfl | h
    · simp
    · have := length_le_sum h
      simp; omega

/-- **C95** (partial, version 1 of the parser): for every command line with plain strings, the text that is generated for
the parser is a Bash program (`BashText.read` reads it), and running it as a function on any words ends and leaves in the
variables exactly what the model of the parser (`bashParseV1`, about which C45 and C46 speak) finds: the positionals,
whether there was a `--` and, for each variable of an option, its values behind those it had; every other variable is as it
was before. Missing: strings with characters that have a meaning in Bash, variables that the parser uses itself
(`C95_local_variable`), names such as `esac` (`C95_esac`), and environments with references to variables. -/
theorem C95_parser_partial (blocks : List Block) (cases : List SwitchCase) (hb : ∀ b ∈ blocks, PlainBashBlock b)
    (hc : ∀ c ∈ cases, PlainBashSwitch c) (words : List Str) (cur : Str) (post : List Str) (e : BashText.Env)
    (he : CallEnv e words cur post) :
    ∃ n, ∀ fuel, n ≤ fuel → ∃ e', runText fuel (v1Text blocks cases) e = some e' ∧
      ParsedInto (bashParseV1 blocks cases words cur post).log (bashParseV1 blocks cases words cur post).positionals
        (bashParseV1 blocks cases words cur post).endOfOptions e e' := by
  have hread := BashText.read_v1 (fun b h => BashText.blockOk (hb b h)) (fun c h => BashText.switchOk (hc c h))
  obtain ⟨prog, hw⟩ := he.array
  refine ⟨words.length + 2 + (words.map List.length).sum, fun fuel hf => ?_⟩
  have hlen : ∀ w ∈ words, w.length < fuel := by
    intro w hw
    have : w.length ≤ (words.map List.length).sum := length_le_sum hw
    omega
  obtain ⟨e', h1, h2, h3, h4, h5, h6, h7⟩ := BashText.v1_run (fuel := fuel) (fs := []) blocks hb cases hc e [] he.refs hw he.cword (by omega) hlen
  refine ⟨e', ?_, h4, h5, h7, h6, h2, h3⟩
  unfold runText
  rw [hread]
  exact h1

/-- The environment is determined: any two that fit have the same variables. -/
theorem C95_determined {log : List (Str × Str)} {ps : List Str} {d : Bool} {e a b : BashText.Env}
    (ha : ParsedInto log ps d e a) (hb : ParsedInto log ps d e b) : a.vars = b.vars := by
  funext v
  by_cases h1 : v = S "POSITIONALS"
  · subst h1; rw [ha.posArray, hb.posArray]
  · by_cases h2 : v = S "END_OF_OPTIONS"
    · subst h2; rw [ha.endMark, hb.endMark]
    · by_cases h3 : v ∈ parserNames
      · rw [ha.others v h3 h1 h2, hb.others v h3 h1 h2]
      · rw [ha.options v h3, hb.options v h3]

/-- **C95** (partial, version 1), together with C46: for every clean tree of commands whose strings are plain, every line in
the documented forms that reaches a command and every word at the cursor, running the generated text leaves in the variable
of each option exactly the values given to this option on the line, in order, behind those it had; `POSITIONALS` are the
positionals typed. Missing: see `C95_parser_partial` and `C46_v1_partial`. -/
theorem C95_tree_partial (root : Cmd) (blocks : List Block) (hb : bashBlocks root = .ok blocks)
    (hpb : ∀ b ∈ blocks, PlainBashBlock b) (hpc : ∀ c ∈ switchCases root, PlainBashSwitch c)
    (hc : CleanTree root) (hn : CleanNames root) (ho : CleanOptions root)
    (hf : ∀ parents c, At root parents c → FlagsOnce parents c)
    (optAt : List Str → Str → Option Opt) (hopt : KnowsOptions root optAt)
    (its : List Item) (last : Ending) (cur : Str) (post : List Str) (parents : List Cmd) (c : Cmd)
    (hr : Reached root (its.flatMap Item.positionals) parents c)
    (hv : ItemsValid (fun ps s => (optAt ps s).map Opt.kind) [] its)
    (hl : last.Valid (fun s => (optAt (its.flatMap Item.positionals) s).map Opt.kind))
    (e : BashText.Env) (he : CallEnv e (its.flatMap Item.words ++ last.words) cur post) :
    ∃ n, ∀ fuel, n ≤ fuel → ∃ e', runText fuel (v1Text blocks (switchCases root)) e = some e' ∧
      ParsedInto (itemEntries optAt [] its ++ lastEntries (optAt (its.flatMap Item.positionals)) cur last)
        (its.flatMap Item.positionals ++ endingPositionals cur post last) last.isDashes e e' := by
  have := C95_parser_partial blocks (switchCases root) hpb hpc _ cur post e he
  rw [C46_v1_partial root blocks hb hc hn ho hf optAt hopt its last cur post parents c hr hv hl] at this
  exact this

/-! ## A case that meets the hypotheses -/

/-- The blocks of the example tree (`prog [-v] FILE run [-o OUT]`). -/
def exampleTextBlocks : List Block :=
  [{ path := S "root:run", inherits := false, opts := [{ longs := [S "--out"], shorts := [S "-o"], kind := .required, var := S "OPT_out" }] },
   { path := S "root", inherits := true, opts := [{ longs := [], shorts := [S "-v"], kind := .flag, var := S "OPT_v" }] }]

theorem example_plain : (∀ b ∈ exampleTextBlocks, PlainBashBlock b) ∧ ∀ c ∈ switchCases exampleRoot, PlainBashSwitch c := by
  constructor
  · intro b hb
    simp only [exampleTextBlocks, List.mem_cons, List.not_mem_nil, or_false] at hb
    rcases hb with rfl | rfl
    · refine ⟨⟨by decide, by decide, by unfold PlainChar; decide⟩, ?_⟩
      intro o ho
      simp only [List.mem_cons, List.not_mem_nil, or_false] at ho
      subst ho
      refine ⟨by decide, by decide, ?_, ?_⟩
      · intro l hl
        simp only [List.mem_cons, List.not_mem_nil, or_false] at hl
        subst hl
        exact ⟨by decide, by unfold PlainChar; decide⟩
      · intro s hs
        simp only [List.mem_cons, List.not_mem_nil, or_false] at hs
        subst hs
        exact ⟨'o', rfl, by unfold PlainChar; decide⟩
    · refine ⟨⟨by decide, by decide, by unfold PlainChar; decide⟩, ?_⟩
      intro o ho
      simp only [List.mem_cons, List.not_mem_nil, or_false] at ho
      subst ho
      refine ⟨by decide, by decide, (fun l hl => by cases hl), ?_⟩
      intro s hs
      simp only [List.mem_cons, List.not_mem_nil, or_false] at hs
      subst hs
      exact ⟨'v', rfl, by unfold PlainChar; decide⟩
  · have : switchCases exampleRoot = [{ path := S "root", num := 2, names := [([S "r"], S "run")] }] := by rfl
    rw [this]
    intro c hc
    simp only [List.mem_cons, List.not_mem_nil, or_false] at hc
    subst hc
    refine ⟨by unfold PlainChar; decide, ?_⟩
    intro e he
    simp only [List.mem_cons, List.not_mem_nil, or_false] at he
    subst he
    refine ⟨by decide, ?_, ?_, ⟨S "r", by decide, by decide⟩, by unfold PlainChar; decide⟩
    · intro s hs
      simp only [List.mem_cons, List.not_mem_nil, or_false] at hs
      subst hs
      exact ⟨by decide, by unfold PlainChar; decide⟩
    · apply C11_single_digits
      intro s hs p c d q h
      simp only [List.mem_cons, List.not_mem_nil, or_false] at hs
      subst hs
      have := congrArg List.length h
      simp [S] at this
      omega

/-- The example: in the line `prog x r -vofile ` with the cursor behind, the text that is generated for the example tree
puts `file` into `OPT_out`, marks `OPT_v`, and has the positionals `x`, `r` and the empty word. -/
theorem C95_example : bashBlocks exampleRoot = .ok exampleTextBlocks ∧
    ∀ e, CallEnv e [S "x", S "r", S "-vofile"] [] [] → ∃ n, ∀ fuel, n ≤ fuel →
      ∃ e', runText fuel (v1Text exampleTextBlocks (switchCases exampleRoot)) e = some e' ∧
        ParsedInto [(S "OPT_v", S "_OPT_ISSET_"), (S "OPT_out", S "file")] [S "x", S "r", []] false e e' := by
  refine ⟨by rfl, fun e he => ?_⟩
  have := C95_parser_partial exampleTextBlocks (switchCases exampleRoot) example_plain.1 example_plain.2 _ [] [] e he
  have hp : bashParseV1 exampleTextBlocks (switchCases exampleRoot) [S "x", S "r", S "-vofile"] [] [] =
      { cmd := S "root:run", log := [(S "OPT_v", S "_OPT_ISSET_"), (S "OPT_out", S "file")], positionals := [S "x", S "r", []], endOfOptions := false } := by
    rfl
  rw [hp] at this
  exact this

/-- There is such an environment. -/
theorem C95_environment (words : List Str) (cur : Str) (post : List Str) : ∃ e, CallEnv e words cur post := by
  refine ⟨{ vars := fun x => if x = S "words_dequoted" then .array (S "prog" :: words ++ cur :: post)
      else if x = S "cword" then .str (BashText.decimal (words.length + 1)) else .unset, args := [], saved := [], ok := true }, ?_, ⟨S "prog", by simp⟩, ?_⟩
  · intro x y
    show (if x = S "words_dequoted" then BashText.Val.array _ else if x = S "cword" then .str _ else .unset) ≠ _
    split
    · intro h; cases h
    · split <;> (intro h; cases h)
  · simp [S]

/-- A subcommand with the alias `esac`: the text is not a Bash program (`esac` ends the `case`). -/
theorem C95_esac :
    BashText.read (v1Text [] [{ path := S "root", num := 1, names := [([S "esac"], S "finish")] }]) = none := by
  kernel_rfl

/-- An option that is captured in a variable which the parser uses itself: the name `arg` is accepted, but the variable is
local to the parser, so after it has run the variable is as it was before, on every line; the model of the parser records
the option. -/
theorem C95_local_variable :
    let blocks : List Block := [{ path := S "root", inherits := true, opts := [{ longs := [S "--x"], shorts := [], kind := .flag, var := S "arg" }] }]
    (bashParseV1 blocks [] [S "--x"] [] []).log = [(S "arg", S "_OPT_ISSET_")] ∧
    (BashText.read (v1Text blocks [])).isSome = true ∧
    ∀ words cur post e, CallEnv e words cur post → ∀ fuel e', runText fuel (v1Text blocks []) e = some e' → e'.vars (S "arg") = e.vars (S "arg") := by
  intro blocks
  have hread := BashText.read_v1 (blocks := blocks) (cases := []) (by
    intro b hb
    simp only [blocks, List.mem_cons, List.not_mem_nil, or_false] at hb
    subst hb
    refine ⟨⟨by decide +kernel, by decide, by decide⟩, ?_, ?_⟩
    · intro o ho _
      simp only [List.mem_cons, List.not_mem_nil, or_false] at ho
      subst ho
      exact ⟨by decide, ⟨by decide +kernel, by decide, by decide⟩, fun h => absurd rfl h⟩
    · intro o ho hne
      simp only [List.mem_cons, List.not_mem_nil, or_false] at ho
      subst ho
      exact absurd rfl hne) (by intro c hc; cases hc)
  refine ⟨by rfl, by rw [hread]; rfl, ?_⟩
  intro words cur post e he fuel e' h
  unfold runText at h
  rw [hread] at h
  exact BashText.v1_locals he.refs h (by decide)

/-- An option with a `;` in its name: the text is not a Bash program. -/
theorem C95_semicolon :
    BashText.read (v1Text [{ path := S "root", inherits := true, opts := [{ longs := [S "--a;b"], shorts := [], kind := .flag, var := S "OPT_a_b" }] }] []) = none := by
  kernel_rfl

end CC
