import Verif.Model.Capture
import Verif.Spec.Captured
import Verif.Props.BashParser
import Verif.Props.FishScript
/-!
# C92: a captured variable holds the values of its option

`occurrences` in `Spec/Captured.lean` says what was given; for Bash, where an option is looked up in the command that
has been reached, `itemOptions` and `lastOptions` in `Spec/BashSpec.lean` do.
-/

namespace CC

/-! ## Bash -/

theorem captureVariable_iff {v : Str} (hv : ¬ S "OPT_" <+: v) (o : Opt) : captureVariable o = v ↔ o.capture = some v := by
  unfold captureVariable
  cases h : o.capture with
  | some w => simp
  | none =>
    simp only [reduceCtorEq, iff_false]
    intro h2
    apply hv
    rw [← h2]
    unfold optionVariableName
    split <;> simp

theorem entries_array {v : Str} (hv : ¬ S "OPT_" <+: v) (hne : v ≠ []) (opt : Str → Option Opt) (gs : List (Str × Option Str)) :
    bashArray (gs.map (optionEntry opt)) v =
      ((gs.filterMap (fun o => (opt o.1).map (fun x => (x, o.2.getD (S "_OPT_ISSET_"))))).filter
        (fun x => x.1.capture == some v)).map (·.2) := by
  induction gs with
  | nil => rfl
  | cons g gs ih =>
    unfold bashArray at ih ⊢
    simp only [List.map_cons, List.filterMap_cons]
    cases h : opt g.1 with
    | none =>
      have : optionEntry opt g = ([], g.2.getD (S "_OPT_ISSET_")) := by simp [optionEntry, h]
      have h2 : (([] : Str) == v) = false := by simpa using hne
      rw [this, List.filter_cons]
      simp only [h2, Bool.false_eq_true, if_false]
      exact ih
    | some o =>
      have : optionEntry opt g = (captureVariable o, g.2.getD (S "_OPT_ISSET_")) := by simp [optionEntry, h]
      rw [this, List.filter_cons]
      simp only [Option.map_some, List.filter_cons]
      by_cases h2 : o.capture = some v
      · have h3 := (captureVariable_iff hv o).mpr h2
        simp only [h2, h3, beq_self_eq_true, if_true, List.map_cons, ih]
      · have h3 := fun x => h2 ((captureVariable_iff hv o).mp x)
        have h4 : (captureVariable o == v) = false := by simpa using h3
        have h5 : (o.capture == some v) = false := by simpa using h2
        simp only [h4, h5, Bool.false_eq_true, if_false]
        exact ih

theorem bashArray_append (a b : List (Str × Str)) (v : Str) : bashArray (a ++ b) v = bashArray a v ++ bashArray b v := by
  simp [bashArray]

theorem items_array {v : Str} (hv : ¬ S "OPT_" <+: v) (hne : v ≠ []) (optAt : List Str → Str → Option Opt) (its : List Item) : ∀ ps,
    bashArray (itemEntries optAt ps its) v =
      ((itemOptions optAt ps its).filter (fun x => x.1.capture == some v)).map (·.2) := by
  induction its with
  | nil => intro _; rfl
  | cons it its ih =>
    intro ps
    rw [itemEntries, itemOptions, bashArray_append, ih, entries_array hv hne, List.filter_append, List.map_append]

theorem last_array {v : Str} (hv : ¬ S "OPT_" <+: v) (hne : v ≠ []) (opt : Str → Option Opt) (cur : Str) (e : Ending) :
    bashArray (lastEntries opt cur e) v =
      ((lastOptions opt cur e).filter (fun x => x.1.capture == some v)).map (·.2) := by
  unfold lastOptions
  rw [← entries_array hv hne]
  unfold lastEntries
  congr 1
  cases e.incomplete <;> simp

/-- The values that were given for the captured variable `v`: those of the options that a word meant where it was typed,
in order, with a mark for an option without argument; the word at the cursor counts if it is such an argument. -/
def givenFor (optAt : List Str → Str → Option Opt) (its : List Item) (e : Ending) (cur v : Str) : List Str :=
  ((itemOptions optAt [] its ++ lastOptions (optAt (its.flatMap Item.positionals)) cur e).filter
    (fun x => x.1.capture == some v)).map (·.2)

/-- **C92 (Bash, partial)** The array of a captured option has one element for each time the option was given: its
argument, or `_OPT_ISSET_` if there was none. For every tree, every line as in C46, both parsers and every variable,
unless its name starts with `OPT_`. Missing: see `C92_bash_generated_name`, and what is missing in C46. -/
theorem C92_bash_partial (root : Cmd) (blocks : List Block) (hb : bashBlocks root = .ok blocks)
    (hc : CleanTree root) (hn : CleanNames root) (ho : CleanOptions root)
    (hf : ∀ parents c, At root parents c → FlagsOnce parents c)
    (optAt : List Str → Str → Option Opt) (hopt : KnowsOptions root optAt)
    (its : List Item) (e : Ending) (cur : Str) (post : List Str) (parents : List Cmd) (c : Cmd)
    (hr : Reached root (its.flatMap Item.positionals) parents c)
    (hv : ItemsValid (fun ps s => (optAt ps s).map Opt.kind) [] its)
    (he : e.Valid (fun s => (optAt (its.flatMap Item.positionals) s).map Opt.kind))
    (v : Str) (hpre : ¬ S "OPT_" <+: v) (hne : v ≠ []) :
    bashArray (bashParseV1 blocks (switchCases root) (its.flatMap Item.words ++ e.words) cur post).log v =
      givenFor optAt its e cur v ∧
    bashArray (bashParseV2 (bashParts root) blocks (switchCases root) (its.flatMap Item.words ++ e.words) cur post).log v =
      givenFor optAt its e cur v := by
  rw [C46_v1_partial root blocks hb hc hn ho hf optAt hopt its e cur post parents c hr hv he,
    C46_v2_partial root blocks hb hc hn ho optAt hopt its e cur post parents c hr hv he]
  have : bashArray (itemEntries optAt [] its ++ lastEntries (optAt (its.flatMap Item.positionals)) cur e) v =
      givenFor optAt its e cur v := by
    rw [bashArray_append, items_array hpre hne, last_array hpre hne, givenFor, List.filter_append, List.map_append]
  exact ⟨this, this⟩

/-- An option whose variable is not chosen by the user gets one that starts with `OPT_`. If the user has chosen that
name for another option, the variable has the values of both. -/
theorem C92_bash_generated_name :
    (do
      let root : Cmd := .node { prog := S "prog", options := [{ strings := [S "--db"], complete := some [], capture := some (S "OPT_file") },
        { strings := [S "--file"], complete := some [] }] } none []
      let blocks ← bashBlocks root
      .ok (bashArray (bashParseV1 blocks (switchCases root) [S "--db", S "x", S "--file", S "y"] [] []).log (S "OPT_file")) : Except Err _).toOption =
    some [S "x", S "y"] := by
  decide +kernel

/-! ## Fish -/

theorem fishCapture_occurrences (strings : List Str) (its : List Item) (e : Ending) (p : Parsed) (hp : p.having = (lineOf its e).given) :
    fishCaptureOption p strings = (occurrences strings its e).map (·.getD []) := by
  unfold fishCaptureOption occurrences
  rw [hp]
  unfold lineOf
  simp only
  generalize its.flatMap Item.options ++ e.options = gs
  induction gs with
  | nil => rfl
  | cons g gs ih =>
    simp only [List.map_cons, List.filter_cons, List.filterMap_cons]
    by_cases h : g.1 ∈ strings
    · simp only [List.contains_iff_mem, h, if_true, List.map_cons]
      rw [← ih]
    · simp only [List.contains_iff_mem, h, if_false]
      exact ih

/-- The option `o` is the only one in the tree that is captured in `v`. -/
def OnlyCapture (root : Cmd) (o : Opt) (v : Str) : Prop :=
  o.capture = some v ∧ (∃ qs x, At root qs x ∧ o ∈ x.data.options) ∧
    ∀ qs x, At root qs x → ∀ o' ∈ x.data.options, o'.capture = some v → o'.strings = o.strings

theorem fishCaptures_mem (root : Cmd) (e : Str × List Str) :
    e ∈ fishCaptures root ↔ ∃ qs x, At root qs x ∧ ∃ o ∈ x.data.options, o.capture = some e.1 ∧ o.strings = e.2 := by
  unfold fishCaptures
  simp only [List.mem_flatMap, List.mem_filterMap, Prod.exists]
  constructor
  · rintro ⟨qs, x, hw, o, ho, h⟩
    have hat := walk_at root root [] .root _ hw
    cases hcap : o.capture with
    | none => rw [hcap] at h; simp at h
    | some v =>
      rw [hcap] at h
      simp only [Option.map_some, Option.some.injEq] at h
      subst h
      exact ⟨qs, x, hat, o, (ownOptions_mem hat o).mp ho, hcap, rfl⟩
  · rintro ⟨qs, x, hat, o, ho, h1, h2⟩
    exact ⟨qs, x, (mem_walk_iff root qs x).mpr hat, o, (ownOptions_mem hat o).mpr ho, by rw [h1, h2]; rfl⟩

/-- **C92 (Fish, partial)** The variable of a captured option has one element for each time the option was given on the
line, in order: its argument, or nothing if there was none. For every tree and every line that uses options as Fish
knows them (C58). Missing: variables shared by options, see `C92_shared`. -/
theorem C92_fish_partial (root : Cmd) (hp : PlainTree root) (its : List Item) (e : Ending)
    (hi : ItemsValid (fishKindAt (definedOptionTypes root).subcommands (fishTable root)) [] its)
    (hv : e.Valid (fishKindAt (definedOptionTypes root).subcommands (fishTable root) (its.flatMap Item.positionals)))
    (o : Opt) (v : Str) (ho : OnlyCapture root o v) :
    fishCaptured root (fishQueryOf root (its.flatMap Item.words ++ e.words)) v =
      some ((occurrences o.strings its e).map (·.getD [])) := by
  obtain ⟨h1, ⟨qs, x, hat, hx⟩, h2⟩ := ho
  rw [← fishCapture_occurrences o.strings its e _ (fishQueryOf_eq hp hi hv).1]
  unfold fishCaptured
  generalize fishQueryOf root (its.flatMap Item.words ++ e.words) = p
  have hall : ∀ y ∈ ((fishCaptures root).filter (fun e => e.1 == v)).map (fun e => fishCaptureOption p e.2),
      y = fishCaptureOption p o.strings := by
    intro y hy
    obtain ⟨z, hz, rfl⟩ := List.mem_map.mp hy
    obtain ⟨hz1, hz2⟩ := List.mem_filter.mp hz
    obtain ⟨qs', x', hat', o', ho', h3, h4⟩ := (fishCaptures_mem root z).mp hz1
    simp only [beq_iff_eq] at hz2
    rw [← h4, h2 qs' x' hat' o' ho' (by rw [h3, hz2])]
  have hne : ((fishCaptures root).filter (fun e => e.1 == v)).map (fun e => fishCaptureOption p e.2) ≠ [] := by
    intro h
    rw [List.map_eq_nil_iff, List.filter_eq_nil_iff] at h
    exact h (v, o.strings) ((fishCaptures_mem root _).mpr ⟨qs, x, hat, o, hx, h1, rfl⟩) (by simp)
  cases hl : (((fishCaptures root).filter (fun e => e.1 == v)).map (fun e => fishCaptureOption p e.2)).getLast? with
  | none => rw [List.getLast?_eq_none_iff] at hl; exact absurd hl hne
  | some y => rw [hall y (List.mem_of_getLast? hl)]

/-! ## Zsh -/

theorem splitAtAny_none {ifs : List Char} : ∀ {w : Str}, (∀ c ∈ w, c ∉ ifs) → splitAtAny ifs w = [w] := by
  intro w
  induction w with
  | nil => intro _; rfl
  | cons c cs ih =>
    intro h
    have h1 := h c List.mem_cons_self
    rw [splitAtAny]
    simp only [List.contains_iff_mem, h1, if_false]
    rw [ih (fun c hc => h c (List.mem_cons_of_mem _ hc))]

theorem splitAtAny_cons {ifs : List Char} {s : Char} (hs : s ∈ ifs) : ∀ {w : Str} {rest : Str}, (∀ c ∈ w, c ∉ ifs) →
    splitAtAny ifs (w ++ s :: rest) = w :: splitAtAny ifs rest := by
  intro w
  induction w with
  | nil => intro rest _; simp [splitAtAny, hs]
  | cons c cs ih =>
    intro rest h
    have h1 := h c List.mem_cons_self
    rw [List.cons_append, splitAtAny]
    simp only [List.contains_iff_mem, h1, if_false]
    rw [ih (fun c hc => h c (List.mem_cons_of_mem _ hc))]

theorem zsh_lines {p : Parsed} {its : List Item} {e : Ending} (hp : p.having = (lineOf its e).given) {strings : List Str} (hs : [] ∉ strings) :
    zshGetOption p strings = (occurrences strings its e).flatMap (fun v => v.getD [] ++ ['\n']) := by
  unfold zshGetOption
  have := fishCapture_occurrences strings its e p hp
  unfold fishCaptureOption at this
  have h2 : (occurrences strings its e).flatMap (fun v => v.getD [] ++ ['\n']) =
      ((occurrences strings its e).map (·.getD [])).flatMap (fun v => v ++ ['\n']) := by
    rw [List.flatMap_map]
  rw [h2, ← this, List.flatMap_map]
  simp [hs]

theorem strip_newlines {w : Str} (h : w.getLast? ≠ some '\n') (n : Nat) :
    ((w ++ List.replicate n '\n').reverse.dropWhile (· == '\n')).reverse = w := by
  rw [List.reverse_append, List.reverse_replicate]
  induction n with
  | zero =>
    simp only [List.replicate_zero, List.nil_append]
    cases hw : w.reverse with
    | nil => simp at hw; simp [hw]
    | cons c cs =>
      have : w = cs.reverse ++ [c] := by rw [← List.reverse_reverse w, hw]; simp
      subst this
      have hc : c ≠ '\n' := by simpa using h
      simp [hc]
  | succ n ih => rw [List.replicate_succ, List.cons_append, List.dropWhile_cons]; simpa using ih

/-- The variable of the only option of the command that is captured in it. -/
theorem zshCaptured_eq {ifs : List Char} {c : Cmd} {p : Parsed} {o : Opt} {v : Str} (hc : o.capture = some v) (hne : v ≠ [])
    (ho : o ∈ c.data.options) (honly : ∀ o' ∈ c.data.options, o'.capture = some v → o'.strings = o.strings) :
    zshCaptured ifs c p v = some (zshSubstitution ifs (zshGetOption p o.strings)) := by
  have hmem : ∀ e, e ∈ (zshCaptures c).filter (fun e => e.1 == v) → e.2 = o.strings := by
    intro e he
    obtain ⟨h1, h2⟩ := List.mem_filter.mp he
    obtain ⟨o', ho', h3⟩ := List.mem_filterMap.mp h1
    simp only [beq_iff_eq] at h2
    split at h3
    · rename_i a as hcap
      simp only [Option.some.injEq] at h3
      subst h3
      exact honly o' ho' (by rw [hcap, ← h2])
    · simp at h3
  have hex : (v, o.strings) ∈ (zshCaptures c).filter (fun e => e.1 == v) := by
    refine List.mem_filter.mpr ⟨List.mem_filterMap.mpr ⟨o, ho, ?_⟩, by simp⟩
    rw [hc]
    cases v with
    | nil => exact absurd rfl hne
    | cons a as => rfl
  unfold zshCaptured
  cases hl : (((zshCaptures c).filter (fun e => e.1 == v)).map (fun e => zshSubstitution ifs (zshGetOption p e.2))).getLast? with
  | none =>
    rw [List.getLast?_eq_none_iff, List.map_eq_nil_iff] at hl
    rw [hl] at hex
    simp at hex
  | some y =>
    obtain ⟨e, he, rfl⟩ := List.mem_map.mp (List.mem_of_getLast? hl)
    rw [hmem e he]

/-- **C92 (Zsh, partial)** The variable of a captured option has the argument of the option, if the option was given
once and the argument is not empty, does not end with a newline and has none of the characters `$`, `\` and `n`; it is
empty if the option was not given. `p` is what the helper knows of the line (C57). Missing: an option given twice and other arguments, see `C92_zsh_n`,
`C92_zsh_twice` and `C92_zsh_flag`. -/
theorem C92_zsh_partial (c : Cmd) (its : List Item) (e : Ending) (p : Parsed) (hp : p.having = (lineOf its e).given)
    (o : Opt) (ho : o ∈ c.data.options) (v : Str) (hc : o.capture = some v) (hne : v ≠ [])
    (honly : ∀ o' ∈ c.data.options, o'.capture = some v → o'.strings = o.strings) (hs : [] ∉ o.strings) :
    (occurrences o.strings its e = [] → zshCaptured zshIFS c p v = some []) ∧
    (∀ w, occurrences o.strings its e = [some w] → w ≠ [] → w.getLast? ≠ some '\n' → (∀ x ∈ w, x ≠ '$' ∧ x ≠ '\\' ∧ x ≠ 'n') →
      zshCaptured zshIFS c p v = some [w]) := by
  rw [zshCaptured_eq hc hne ho honly, zsh_lines hp hs]
  constructor
  · intro h
    rw [h]
    rfl
  · intro w h h1 h2 h3
    rw [h]
    simp only [List.flatMap_cons, List.flatMap_nil, List.append_nil, Option.getD_some]
    unfold zshSubstitution
    have := strip_newlines h2 1
    rw [show (List.replicate 1 '\n' : Str) = ['\n'] from rfl] at this
    rw [this, splitAtAny_none (by intro x hx; obtain ⟨a, b, c⟩ := h3 x hx; simp [zshIFS, a, b, c])]
    cases w with
    | nil => exact absurd rfl h1
    | cons a as => rfl

theorem lines_split {ws : List Str} (h : ∀ w ∈ ws, '\n' ∉ w) :
    (splitAtAny ['\n'] (ws.flatMap (fun v => v ++ ['\n']))).filter (fun w => !w.isEmpty) = ws.filter (fun w => !w.isEmpty) := by
  induction ws with
  | nil => rfl
  | cons w ws ih =>
    have h1 := h w List.mem_cons_self
    simp only [List.flatMap_cons, List.append_assoc, List.cons_append, List.nil_append]
    rw [splitAtAny_cons (by simp) (by intro c hc; simp only [List.mem_singleton]; intro e; subst e; exact h1 hc),
      List.filter_cons, List.filter_cons, ih (fun w hw => h w (List.mem_cons_of_mem _ hw))]

theorem splitAtAny_ne (ifs : List Char) (t : Str) : splitAtAny ifs t ≠ [] := by
  cases t with
  | nil => simp [splitAtAny]
  | cons c cs =>
    rw [splitAtAny]
    split
    · simp
    · split <;> simp

theorem split_trailing (t : Str) (n : Nat) :
    splitAtAny ['\n'] (t ++ List.replicate n '\n') = splitAtAny ['\n'] t ++ List.replicate n [] := by
  induction t with
  | nil =>
    simp only [List.nil_append]
    induction n with
    | zero => rfl
    | succ n ih =>
      rw [List.replicate_succ]
      simp only [splitAtAny, List.contains_iff_mem, List.mem_singleton, if_true] at ih ⊢
      rw [ih, List.replicate_succ]
      rfl
  | cons c cs ih =>
    rw [List.cons_append, splitAtAny, splitAtAny, ih]
    cases h2 : splitAtAny ['\n'] cs with
    | nil => exact absurd h2 (splitAtAny_ne _ _)
    | cons b bs => split <;> simp

theorem newlines_end (t : Str) : ∃ n, t = (t.reverse.dropWhile (· == '\n')).reverse ++ List.replicate n '\n' := by
  have : ∀ r : Str, ∃ n, r = List.replicate n '\n' ++ r.dropWhile (· == '\n') := by
    intro r
    induction r with
    | nil => exact ⟨0, rfl⟩
    | cons c cs ih =>
      rw [List.dropWhile_cons]
      split
      · rename_i h
        obtain ⟨n, hn⟩ := ih
        simp only [beq_iff_eq] at h
        subst h
        refine ⟨n + 1, ?_⟩
        rw [List.replicate_succ, List.cons_append, ← hn]
      · exact ⟨0, rfl⟩
  obtain ⟨n, hn⟩ := this t.reverse
  refine ⟨n, ?_⟩
  have h2 := congrArg List.reverse hn
  rw [List.reverse_reverse, List.reverse_append, List.reverse_replicate] at h2
  exact h2

/-- With a newline in `IFS`, as it was meant, the variable would have the arguments of all occurrences but those that are
empty, as long as none of them contains a newline. -/
theorem C92_zsh_with_newline (c : Cmd) (its : List Item) (e : Ending) (p : Parsed) (hp : p.having = (lineOf its e).given)
    (o : Opt) (ho : o ∈ c.data.options) (v : Str) (hc : o.capture = some v) (hne : v ≠ [])
    (honly : ∀ o' ∈ c.data.options, o'.capture = some v → o'.strings = o.strings) (hs : [] ∉ o.strings)
    (hw : ∀ w ∈ occurrences o.strings its e, '\n' ∉ w.getD []) :
    zshCaptured ['\n'] c p v = some (((occurrences o.strings its e).map (·.getD [])).filter (fun w => !w.isEmpty)) := by
  rw [zshCaptured_eq hc hne ho honly, zsh_lines hp hs]
  have h2 : (occurrences o.strings its e).flatMap (fun v => v.getD [] ++ ['\n']) =
      ((occurrences o.strings its e).map (·.getD [])).flatMap (fun v => v ++ ['\n']) := by
    rw [List.flatMap_map]
  rw [h2]
  have h3 : ∀ w ∈ (occurrences o.strings its e).map (·.getD []), '\n' ∉ w := by
    intro w hm
    obtain ⟨x, hx, rfl⟩ := List.mem_map.mp hm
    exact hw x hx
  rw [← lines_split h3]
  generalize ((occurrences o.strings its e).map (·.getD [])).flatMap (fun v => v ++ ['\n']) = t
  unfold zshSubstitution
  obtain ⟨n, hn⟩ := newlines_end t
  congr 1
  conv => rhs; rw [hn, split_trailing, List.filter_append]
  simp

/-- A program with a captured option. -/
def captureRoot (more : List Opt) : Cmd :=
  .node { prog := S "prog", options := { strings := [S "--db", S "-d"], complete := some [], capture := some (S "_DB") } :: more } none []

/-- An argument is cut at every `n`. -/
theorem C92_zsh_n :
    zshCaptured zshIFS (captureRoot []) { having := (lineOf [.sep (S "--db") (S "main")] .done).given } (S "_DB") = some [S "mai"] ∧
    zshCaptured zshIFS (captureRoot []) { having := (lineOf [.sep (S "--db") (S "banana")] .done).given } (S "_DB") =
      some [S "ba", S "a", S "a"] := by
  decide +kernel

/-- Two arguments become one element. -/
theorem C92_zsh_twice :
    zshCaptured zshIFS (captureRoot []) { having := (lineOf [.sep (S "--db") (S "a"), .attached [] 'd' (S "b")] .done).given } (S "_DB") =
      some [S "a\nb"] := by
  decide +kernel

/-- An option without argument leaves no element, not even an empty one; in Fish and Bash it does. -/
theorem C92_zsh_flag :
    let root : Cmd := .node { prog := S "prog", options := [{ strings := [S "--all"], capture := some (S "_ALL") }] } none []
    let p : Parsed := { having := (lineOf [.word (S "--all"), .word (S "--all")] .done).given }
    zshCaptured zshIFS root p (S "_ALL") = some [] ∧ fishCaptured root p (S "_ALL") = some [[], []] := by
  decide +kernel

/-- Two options captured in one variable: in Fish the variable has the values of the last of the two, in Bash those
of both. -/
theorem C92_shared :
    let root := captureRoot [{ strings := [S "--file"], complete := some [], capture := some (S "_DB") }]
    fishCaptured root (fishQueryOf root [S "--db", S "x", S "--file", S "y"]) (S "_DB") = some [S "y"] ∧
    (do
      let blocks ← bashBlocks root
      .ok (bashArray (bashParseV1 blocks (switchCases root) [S "--db", S "x", S "--file", S "y"] [] []).log (S "_DB")) : Except Err _).toOption =
      some [S "x", S "y"] := by
  decide +kernel

theorem capture_at {more : List Opt} {parents : List Cmd} {c : Cmd} (h : At (captureRoot more) parents c) :
    parents = [] ∧ c = captureRoot more := by
  induction h with
  | root => exact ⟨rfl, rfl⟩
  | @child parents c d _ hd ih =>
    obtain ⟨rfl, rfl⟩ := ih
    simp [captureRoot, Cmd.children] at hd

/-- The option of the example. -/
def captureOption : Opt := { strings := [S "--db", S "-d"], complete := some [], capture := some (S "_DB") }

/-- A case of the theorems: the line `prog --db a -db` meets all hypotheses, and the variables are as they say. -/
theorem C92_example :
    let its : List Item := [.sep (S "--db") (S "a"), .attached [] 'd' (S "b")]
    let root := captureRoot []
    (CleanTree root ∧ CleanNames root ∧ CleanOptions root ∧ (∀ parents c, At root parents c → FlagsOnce parents c) ∧
      (∃ blocks, bashBlocks root = .ok blocks) ∧ Reached root (its.flatMap Item.positionals) [] root ∧
      ∃ optAt, KnowsOptions root optAt ∧ ItemsValid (fun ps s => (optAt ps s).map Opt.kind) [] its ∧
        givenFor optAt its .done [] (S "_DB") = [S "a", S "b"]) ∧
    (PlainTree root ∧ ItemsValid (fishKindAt (definedOptionTypes root).subcommands (fishTable root)) [] its ∧
      OnlyCapture root captureOption (S "_DB") ∧
      fishCaptured root (fishQueryOf root (its.flatMap Item.words)) (S "_DB") = some [S "a", S "b"]) ∧
    zshCaptured zshIFS root { having := (lineOf [.sep (S "--db") (S "a")] .done).given } (S "_DB") = some [S "a"] := by
  intro its root
  have hall : ∀ {parents c}, At root parents c → parents = [] ∧ c = root := fun h => capture_at h
  have hopts : root.data.options = [captureOption] := rfl
  have hch : root.children = [] := rfl
  have hc : CleanTree root := by
    refine ⟨?_, ?_, ?_, ?_, ?_⟩
    · intro parents c h d hd
      obtain ⟨rfl, rfl⟩ := hall h
      rw [hch] at hd; simp at hd
    · intro parents c h d hd
      obtain ⟨rfl, rfl⟩ := hall h
      rw [hch] at hd; simp at hd
    · intro parents c h
      obtain ⟨rfl, rfl⟩ := hall h
      decide
    · intro parents c h n hn
      obtain ⟨rfl, rfl⟩ := hall h
      cases hn
    · intro parents c h hne
      obtain ⟨rfl, rfl⟩ := hall h
      exact absurd hch hne
  have hn : CleanNames root := by
    refine ⟨?_, ?_⟩
    · intro parents c h d hd
      obtain ⟨rfl, rfl⟩ := hall h
      rw [hch] at hd; simp at hd
    · intro parents c h d hd
      obtain ⟨rfl, rfl⟩ := hall h
      rw [hch] at hd; simp at hd
  have ho : CleanOptions root := by
    refine ⟨?_, ?_⟩
    · intro parents c h o ho s hs
      obtain ⟨rfl, rfl⟩ := hall h
      rw [hopts] at ho
      simp only [List.mem_singleton] at ho
      subst ho
      simp only [captureOption, List.mem_cons, List.not_mem_nil, or_false] at hs
      rcases hs with rfl | rfl
      · refine ⟨⟨by decide, '-', S "db", rfl, by decide⟩, by decide⟩
      · refine ⟨⟨by decide, 'd', [], rfl, by decide⟩, by decide⟩
    · intro parents c h s o o' h1 h2
      obtain ⟨rfl, rfl⟩ := hall h
      have a := h1.1; have b := h2.1
      rw [hopts] at a b
      simp only [List.mem_singleton] at a b
      rw [a, b]
  have hr : Reached root [] [] root := Reached.start
  have hitems : ∀ kindAt : List Str → Str → Option ArgKind, kindAt [] (S "--db") = some .required →
      kindAt [] (S "-d") = some .required → kindAt [] (S "-db") = none → ItemsValid kindAt [] its := by
    intro kindAt k1 k2 k3
    refine ⟨⟨Or.inl ⟨⟨'d', ['b'], rfl⟩, by decide⟩, k1⟩, ⟨by decide, ?_, by decide, Or.inl k2, ?_, ?_⟩, trivial⟩
    · intro c hc; simp at hc
    · intro p r h _
      exfalso
      have : '=' ∈ S "-db" := by
        show '=' ∈ '-' :: ([] ++ 'd' :: S "b")
        rw [h]; simp
      revert this; decide
    · intro _ _; exact k3
  refine ⟨⟨hc, hn, ho, ?_, ⟨_, rfl⟩, hr, ?_⟩, ⟨?_, ?_, ?_, by decide +kernel⟩, by decide +kernel⟩
  · intro parents c h l1 e l2 s o hl ho1 hk hs hso e' he' o' ho' hso'
    obtain ⟨rfl, rfl⟩ := hall h
    have : inheritedFrom [] root = [([], root)] := rfl
    rw [this] at hl
    have hlen := congrArg List.length hl
    simp at hlen
    have : l2 = [] := List.eq_nil_of_length_eq_zero (by omega)
    subst this; simp at he'
  · obtain ⟨optAt, hopt⟩ := knowsOptions_exists root hc ho
    have hknow : ∀ s ∈ captureOption.strings, optAt [] s = some captureOption := by
      intro s hs
      refine (hopt _ _ _ hr _ _).mpr ⟨[], ([], root), [], rfl, ⟨by rw [hopts]; simp, Or.inl hs⟩, by simp⟩
    have h1 := hknow (S "--db") (by decide)
    have h2 := hknow (S "-d") (by decide)
    have hkind : captureOption.kind = .required := by decide
    have hno : optAt [] (S "-db") = none := by
      cases hx : optAt [] (S "-db") with
      | none => rfl
      | some o =>
        exfalso
        obtain ⟨l1, e, l2, k1, k2, -⟩ := (hopt _ _ _ hr _ _).mp hx
        have hm : e ∈ inheritedFrom [] root := by rw [k1]; simp
        have hi : inheritedFrom [] root = [([], root)] := rfl
        rw [hi] at hm
        simp only [List.mem_singleton] at hm
        subst hm
        have h3 := k2.1
        rw [hopts] at h3
        simp only [List.mem_singleton] at h3
        subst h3
        rcases k2.2 with k | ⟨k, -⟩
        · revert k; decide
        · cases k
    refine ⟨optAt, hopt, hitems _ ?_ ?_ ?_, ?_⟩
    · show (optAt [] (S "--db")).map Opt.kind = _
      rw [h1]; exact congrArg some hkind
    · show (optAt [] (S "-d")).map Opt.kind = _
      rw [h2]; exact congrArg some hkind
    · show (optAt [] (S "-db")).map Opt.kind = _
      rw [hno]; rfl
    · have e1 : optAt [] (S "--db") = some captureOption := h1
      have e2 : optAt [] ['-', 'd'] = some captureOption := h2
      simp [givenFor, its, itemOptions, lastOptions, Item.options, Item.positionals, flagOptions, e1, e2, captureOption, Ending.options, Ending.incomplete]
  · rintro s ⟨parents, c, hat, o, ho, hs⟩
    obtain ⟨rfl, rfl⟩ := hall hat
    rw [hopts] at ho
    simp only [List.mem_singleton] at ho
    subst ho
    simp only [captureOption, List.mem_cons, List.not_mem_nil, or_false] at hs
    rcases hs with rfl | rfl
    · exact ⟨⟨by decide, '-', S "db", rfl, by decide⟩, by decide⟩
    · exact ⟨⟨by decide, 'd', [], rfl, by decide⟩, by decide⟩
  · exact hitems _ (by decide +kernel) (by decide +kernel) (by decide +kernel)
  · refine ⟨rfl, ⟨[], root, .root, by rw [hopts]; simp⟩, ?_⟩
    intro qs x hat o' ho' _
    obtain ⟨rfl, rfl⟩ := hall hat
    rw [hopts] at ho'
    simp only [List.mem_singleton] at ho'
    rw [ho']

end CC
