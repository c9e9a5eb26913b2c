import Verif.Lemmas.BashTree
/-!
# C45, C46: the two Bash command line parsers
-/

namespace CC

theorem itemsValid_congr {k k' : List Str → Str → Option ArgKind} (its : List Item) : ∀ ps,
    (∀ pre, pre <+: its.flatMap Item.positionals → k (ps ++ pre) = k' (ps ++ pre)) → ItemsValid k ps its → ItemsValid k' ps its := by
  induction its with
  | nil => intro _ _ _; trivial
  | cons it its ih =>
    intro ps h hv
    have h0 := h [] (by simp)
    rw [List.append_nil] at h0
    refine ⟨by rw [← h0]; exact hv.1, ih _ ?_ hv.2⟩
    intro pre hp
    rw [List.append_assoc]
    exact h _ (by simpa using hp)

theorem itemEntries_congr {f : List Str → Str → Option BOpt} {g : List Str → Str → Option Opt} (its : List Item) : ∀ ps,
    (∀ pre, pre <+: its.flatMap Item.positionals → ∀ o, bashRecord (f (ps ++ pre)) o = optionEntry (g (ps ++ pre)) o) →
    bashEntries f ps its = itemEntries g ps its := by
  induction its with
  | nil => intro _ _; rfl
  | cons it its ih =>
    intro ps h
    have h0 := h [] (by simp)
    rw [List.append_nil] at h0
    rw [bashEntries, itemEntries, ih]
    · congr 1
      exact List.map_congr_left (fun o _ => h0 o)
    · intro pre hp
      rw [List.append_assoc]
      exact h _ (by simpa using hp)

/-- The core of both theorems. -/
theorem bash_parse {root : Cmd} (hc : CleanTreeM root) (hn : CleanNames root) (ho : CleanOptions root)
    (option : Str → Str → Str → BEffect) (cases : List SwitchCase)
    (hcmd : ∀ ps parents c, ReachedM root ps parents c → cmdFrom cases (S "root") 0 ps = subcommandPath parents c)
    {optAt : List Str → Str → Option Opt} (hopt : ∀ ps parents c, ReachedM root ps parents c → ∀ s o, optAt ps s = some o ↔ KnownOption parents c s o)
    {its : List Item} {e : Ending} (cur : Str) (post : List Str) {parents : List Cmd} {c : Cmd}
    (hr : ReachedM root (its.flatMap Item.positionals) parents c)
    (hok : ∀ ps parents c, ps <+: its.flatMap Item.positionals → ReachedM root ps parents c →
      BranchOk (option (subcommandPath parents c)) (findBOpt ((root.walk []).reverse.map blockOf) (subcommandPath parents c)))
    (hv : ItemsValid (fun ps s => (optAt ps s).map Opt.kind) [] its)
    (he : e.Valid (fun s => (optAt (its.flatMap Item.positionals) s).map Opt.kind)) :
    bashLoop option cases cur post {} false (its.flatMap Item.words ++ e.words) =
      { cmd := subcommandPath parents c
        log := itemEntries optAt [] its ++ lastEntries (optAt (its.flatMap Item.positionals)) cur e
        positionals := its.flatMap Item.positionals ++ endingPositionals cur post e
        endOfOptions := e.isDashes } := by
  let blocks := (root.walk []).reverse.map blockOf
  let findAt : List Str → Str → Option BOpt := fun ps => findBOpt blocks (cmdFrom cases (S "root") 0 ps)
  have hfind : ∀ ps, ps <+: its.flatMap Item.positionals → ∀ s, (∃ b o, findAt ps s = some b ∧ optAt ps s = some o ∧
      b.kind = o.kind ∧ b.var = captureVariable o) ∨ (findAt ps s = none ∧ optAt ps s = none) := by
    intro ps hp s
    obtain ⟨qs, x, hx⟩ := reached_prefix hr ps hp
    have hk := find_known hc hn ho (reached_at hx) s
    simp only [findAt]
    rw [hcmd ps qs x hx]
    cases hs : optAt ps s with
    | some o =>
      obtain ⟨e, h1⟩ := hk.1 o ((hopt ps qs x hx s o).mp hs)
      exact Or.inl ⟨_, o, h1, rfl, rfl, rfl⟩
    | none =>
      refine Or.inr ⟨hk.2 ?_, rfl⟩
      intro o h
      rw [(hopt ps qs x hx s o).mpr h] at hs
      simp at hs
  have hkind : ∀ ps, ps <+: its.flatMap Item.positionals → (fun s => (optAt ps s).map Opt.kind) = kindOf (findAt ps) := by
    intro ps hp
    funext s
    unfold kindOf
    rcases hfind ps hp s with ⟨b, o, h1, h2, h3, -⟩ | ⟨h1, h2⟩
    · rw [h1, h2]; simp [h3]
    · rw [h1, h2]; rfl
  have hrec : ∀ ps, ps <+: its.flatMap Item.positionals → ∀ o, bashRecord (findAt ps) o = optionEntry (optAt ps) o := by
    intro ps hp o
    unfold bashRecord optionEntry
    rcases hfind ps hp o.1 with ⟨b, o', h1, h2, -, h3⟩ | ⟨h1, h2⟩
    · rw [h1, h2]; simp [h3]; rfl
    · rw [h1, h2]; rfl
  have hitems := bashLoop_items (option := option) cases cur post findAt its {} (by
      intro pre hp
      obtain ⟨qs, x, hx⟩ := reached_prefix hr pre hp
      have := hok pre qs x hp hx
      simp only [List.nil_append, List.length_nil, findAt]
      rw [hcmd pre qs x hx]
      exact this)
    (itemsValid_congr (k := fun ps s => (optAt ps s).map Opt.kind) its [] (by
      intro pre hp; exact hkind pre hp) hv) e.words
  rw [hitems]
  have hend : BranchOk (option (cmdFrom cases (S "root") 0 (its.flatMap Item.positionals))) (findAt (its.flatMap Item.positionals)) := by
    have := hok _ parents c (List.prefix_refl _) hr
    simp only [findAt]
    rw [hcmd _ _ _ hr]
    exact this
  rw [bashLoop_ending (find := findAt (its.flatMap Item.positionals)) _ _ _ _ rfl hend _ (by
    rw [← hkind _ (List.prefix_refl _)]; exact he)]
  simp only [List.nil_append, List.length_nil]
  rw [hcmd _ _ _ hr, itemEntries_congr its [] (fun pre hp o => hrec pre hp o)]
  congr 1
  unfold endingEntries lastEntries
  congr 2
  · exact List.map_congr_left (fun o _ => hrec _ (List.prefix_refl _) o)
  · cases e.incomplete with
    | none => rfl
    | some n => simp [hrec _ (List.prefix_refl _)]

/-- **C46 (version 1, partial)** The first Bash parser records exactly what was typed. For every tree with
unambiguous names, every line in the documented forms whose positionals reach a command `c` (by names,
aliases or abbreviations), every word at the cursor: the parser stands at `c`, the log has the value of
each option under the variable of the option the word names in the command where it was typed, in
order, and the positionals are those typed. Missing: trees that are not clean (see `C46_name_prefix`),
option strings with glob characters, and flags whose letter is also an option of an inheriting command
(see `C45_inherited_flag`). -/
theorem C46_v1_partial (root : Cmd) (blocks : List Block) (hb : bashBlocks root = .ok blocks)
    (hc : CleanTree root) (hn : CleanNames root) (ho : CleanOptions root)
    (hf : ∀ parents c, At root parents c → FlagsOnce parents c)
    (optAt : List Str → Str → Option Opt) (hopt : KnowsOptions root optAt)
    (its : List Item) (e : Ending) (cur : Str) (post : List Str) (parents : List Cmd) (c : Cmd)
    (hr : Reached root (its.flatMap Item.positionals) parents c)
    (hv : ItemsValid (fun ps s => (optAt ps s).map Opt.kind) [] its)
    (he : e.Valid (fun s => (optAt (its.flatMap Item.positionals) s).map Opt.kind)) :
    bashParseV1 blocks (switchCases root) (its.flatMap Item.words ++ e.words) cur post =
      { cmd := subcommandPath parents c
        log := itemEntries optAt [] its ++ lastEntries (optAt (its.flatMap Item.positionals)) cur e
        positionals := its.flatMap Item.positionals ++ endingPositionals cur post e
        endOfOptions := e.isDashes } := by
  replace hr := (reached_iff hc _ _ _).mp hr
  replace hopt := fun ps parents c h => hopt ps parents c ((reached_iff hc _ _ _).mpr h)
  replace hc := hc.toM
  have hbl := (bashBlocks_eq hb).1
  subst hbl
  unfold bashParseV1
  refine bash_parse hc hn ho _ _ (fun ps qs x h => cmdFrom_reached hc hn h) hopt cur post hr ?_ hv he
  intro ps qs x _ hx
  exact v1_ok (blocks_ok ho) _ (oneBlock hc hn ho (reached_at hx) (hf _ _ (reached_at hx)))

theorem cmdFrom_nil (cmd : Str) (n : Nat) (ps : List Str) : cmdFrom [] cmd n ps = cmd := by
  induction ps generalizing n with
  | nil => rfl
  | cons p ps ih => rw [cmdFrom]; exact ih _

/-- Without positionals and subcommands there is only the program itself. -/
theorem no_positionals {root : Cmd} (hc : CleanTreeM root) (h : (bashParts root).positionals = false) {parents : List Cmd} {c : Cmd}
    (hat : At root parents c) : parents = [] ∧ c = root := by
  induction hat with
  | root => exact ⟨rfl, rfl⟩
  | @child parents c d hat hd ih =>
    exfalso
    have hne : c.children ≠ [] := by intro e; rw [e] at hd; simp at hd
    simp only [bashParts, List.any_eq_false] at h
    have := h c (at_all hat)
    simp [hc.slot _ _ hat hne, hne] at this

/-- **C46 (version 2, partial)** The second Bash parser records exactly what was typed, as for the first.
If the tree has neither positionals nor subcommands, this parser does not record positionals. Missing:
trees that are not clean. -/
theorem C46_v2_partial (root : Cmd) (blocks : List Block) (hb : bashBlocks root = .ok blocks)
    (hc : CleanTree root) (hn : CleanNames root) (ho : CleanOptions root)
    (optAt : List Str → Str → Option Opt) (hopt : KnowsOptions root optAt)
    (its : List Item) (e : Ending) (cur : Str) (post : List Str) (parents : List Cmd) (c : Cmd)
    (hr : Reached root (its.flatMap Item.positionals) parents c)
    (hv : ItemsValid (fun ps s => (optAt ps s).map Opt.kind) [] its)
    (he : e.Valid (fun s => (optAt (its.flatMap Item.positionals) s).map Opt.kind)) :
    bashParseV2 (bashParts root) blocks (switchCases root) (its.flatMap Item.words ++ e.words) cur post =
      { cmd := subcommandPath parents c
        log := itemEntries optAt [] its ++ lastEntries (optAt (its.flatMap Item.positionals)) cur e
        positionals := if (bashParts root).positionals then
          its.flatMap Item.positionals ++ endingPositionals cur post e else []
        endOfOptions := e.isDashes } := by
  replace hr := (reached_iff hc _ _ _).mp hr
  replace hopt := fun ps parents c h => hopt ps parents c ((reached_iff hc _ _ _).mpr h)
  replace hc := hc.toM
  have hbl := (bashBlocks_eq hb).1
  subst hbl
  unfold bashParseV2
  simp only
  have := bash_parse hc hn ho (v2Option (bashParts root) ((root.walk []).reverse.map blockOf))
    (if (bashParts root).positionals then switchCases root else []) (by
      intro ps qs x h
      cases hp : (bashParts root).positionals with
      | true => exact cmdFrom_reached hc hn h
      | false =>
        obtain ⟨rfl, rfl⟩ := no_positionals hc hp (reached_at h)
        simp only [Bool.false_eq_true, if_false]
        rw [cmdFrom_nil]
        rfl)
    hopt cur post hr (by
      intro ps qs x _ hx
      exact v2_ok (blocks_ok ho) _ _ (parts_ok hc hn ho (reached_at hx))) hv he
  rw [this]

/-- **C45 (partial)** On every such line both parsers record the same: the same options with the same
values in the same order, the same command and, if the tree has positionals or subcommands, the same
positionals. Missing: other lines, on which the parsers differ (see the theorems below). -/
theorem C45_agree_partial (root : Cmd) (blocks : List Block) (hb : bashBlocks root = .ok blocks)
    (hc : CleanTree root) (hn : CleanNames root) (ho : CleanOptions root)
    (hf : ∀ parents c, At root parents c → FlagsOnce parents c)
    (optAt : List Str → Str → Option Opt) (hopt : KnowsOptions root optAt)
    (its : List Item) (e : Ending) (cur : Str) (post : List Str) (parents : List Cmd) (c : Cmd)
    (hr : Reached root (its.flatMap Item.positionals) parents c)
    (hv : ItemsValid (fun ps s => (optAt ps s).map Opt.kind) [] its)
    (he : e.Valid (fun s => (optAt (its.flatMap Item.positionals) s).map Opt.kind)) :
    let v1 := bashParseV1 blocks (switchCases root) (its.flatMap Item.words ++ e.words) cur post
    let v2 := bashParseV2 (bashParts root) blocks (switchCases root) (its.flatMap Item.words ++ e.words) cur post
    v1.log = v2.log ∧ v1.cmd = v2.cmd ∧ v1.endOfOptions = v2.endOfOptions ∧
    ((bashParts root).positionals = true → v1.positionals = v2.positionals) := by
  intro v1 v2
  simp only [v1, v2]
  rw [C46_v1_partial root blocks hb hc hn ho hf optAt hopt its e cur post parents c hr hv he,
    C46_v2_partial root blocks hb hc hn ho optAt hopt its e cur post parents c hr hv he]
  refine ⟨rfl, rfl, rfl, ?_⟩
  intro h
  simp [h]

/-- In a clean tree the positionals determine the command. -/
theorem reached_det {root : Cmd} (hc : CleanTree root) {ps : List Str} {parents : List Cmd} {c : Cmd}
    (h : Reached root ps parents c) : ∀ {qs : List Cmd} {x : Cmd}, Reached root ps qs x → parents = qs ∧ c = x := by
  induction h with
  | start =>
    intro qs x hx
    generalize hz : ([] : List Str) = z at hx
    cases hx with
    | start => exact ⟨rfl, rfl⟩
    | word => simp at hz
    | sub => simp at hz
  | @word ps parents c w hr hne ih =>
    intro qs x hx
    generalize hz : ps ++ [w] = z at hx
    cases hx with
    | start => simp at hz
    | @word ps' qs x w' hr' hne' =>
      have := List.append_inj' hz rfl
      obtain ⟨rfl, -⟩ := this
      exact ih hr'
    | @sub ps' qs y x w' hr' hs' hd' hw' =>
      obtain ⟨rfl, -⟩ := List.append_inj' hz rfl
      obtain ⟨rfl, rfl⟩ := ih hr'
      exact absurd hs' hne
  | @sub ps parents c d w hr hs hd hw ih =>
    intro qs x hx
    generalize hz : ps ++ [w] = z at hx
    cases hx with
    | start => simp at hz
    | @word ps' qs x w' hr' hne' =>
      obtain ⟨rfl, -⟩ := List.append_inj' hz rfl
      obtain ⟨rfl, rfl⟩ := ih hr'
      exact absurd hs hne'
    | @sub ps' qs y x w' hr' hs' hd' hw' =>
      obtain ⟨rfl, hw2⟩ := List.append_inj' hz rfl
      obtain ⟨rfl, rfl⟩ := ih hr'
      simp only [List.cons.injEq, and_true] at hw2
      subst hw2
      exact ⟨rfl, hc.distinct _ _ (reached_at ((reached_iff hc _ _ _).mp hr)) _ hd _ hd' _ hw hw'⟩

/-- In a clean tree a word names at most one option. -/
theorem known_unique {root : Cmd} (ho : CleanOptions root) {parents : List Cmd} {c : Cmd} (hat : At root parents c) {s : Str}
    {o o' : Opt} (h : KnownOption parents c s o) (h' : KnownOption parents c s o') : o = o' := by
  obtain ⟨l1, e, l2, h1, h2, h3⟩ := h
  obtain ⟨m1, f, m2, k1, k2, k3⟩ := h'
  have hatl := inheritedFrom_at hat
  rw [h1] at k1
  have : e = f := by
    have aux : ∀ (l1 m1 : List (List Cmd × Cmd)), l1 ++ e :: l2 = m1 ++ f :: m2 →
        (∀ e' ∈ l1, ∀ o', ¬ NamesOption e'.1 e'.2 s o') → (∀ e' ∈ m1, ∀ o', ¬ NamesOption e'.1 e'.2 s o') → e = f := by
      intro l1
      induction l1 with
      | nil =>
        intro m1 hm _ hb
        cases m1 with
        | nil => simp at hm; exact hm.1
        | cons y m1 => simp at hm; rw [← hm.1] at hb; exact absurd h2 (hb e (by simp) o)
      | cons z l1 ih =>
        intro m1 hm ha hb
        cases m1 with
        | nil => simp at hm; rw [hm.1] at ha; exact absurd k2 (ha f (by simp) o')
        | cons y m1 =>
          simp only [List.cons_append, List.cons.injEq] at hm
          exact ih m1 hm.2 (fun e he => ha e (by simp [he])) (fun e he => hb e (by simp [he]))
    exact aux l1 m1 k1 h3 k3
  subst this
  rw [h1] at hatl
  exact ho.single _ _ (hatl e (by simp)) s o o' h2 k2

/-- The knowledge that the theorems speak of exists for every clean tree. -/
theorem knowsOptions_exists (root : Cmd) (hc : CleanTree root) (ho : CleanOptions root) : ∃ optAt, KnowsOptions root optAt := by
  classical
  refine ⟨fun ps s => if h : ∃ o, ∃ parents c, Reached root ps parents c ∧ KnownOption parents c s o then some h.choose else none, ?_⟩
  intro ps parents c hr s o
  dsimp only
  constructor
  · intro h
    split at h
    · rename_i hx
      obtain ⟨qs, x, h1, h2⟩ := hx.choose_spec
      obtain ⟨rfl, rfl⟩ := reached_det hc hr h1
      simp at h
      rw [← h]; exact h2
    · simp at h
  · intro h
    have hx : ∃ o, ∃ parents c, Reached root ps parents c ∧ KnownOption parents c s o := ⟨o, parents, c, hr, h⟩
    rw [dif_pos hx]
    obtain ⟨qs, x, h1, h2⟩ := hx.choose_spec
    obtain ⟨rfl, rfl⟩ := reached_det hc hr h1
    rw [known_unique ho (reached_at ((reached_iff hc _ _ _).mp hr)) h2 h]

/-! ## Where the parsers differ -/

/-- Runs both parsers on words before the cursor, with an empty word at the cursor. -/
def bothParsers (root : Cmd) (words : List Str) : Except Err (BState × BState) := do
  let blocks ← bashBlocks root
  .ok (bashParseV1 blocks (switchCases root) words [] [],
    bashParseV2 (bashParts root) blocks (switchCases root) words [] [])

/-- An unknown long option: the first parser takes its letters for short options. -/
theorem C45_unknown_long :
    (bothParsers (.node { prog := S "prog", options := [{ strings := [S "-f"] }, { strings := [S "--bar"] }] } none [])
      [S "--foo"]).toOption.map (fun r => (r.1.log, r.2.log)) = some ([(S "OPT_f", S "_OPT_ISSET_")], []) := by
  decide +kernel

/-- A flag with a value: the second parser records the value, the first takes the letters for short
options. -/
theorem C45_flag_value :
    (bothParsers (.node { prog := S "prog", options := [{ strings := [S "-g"] }, { strings := [S "--flag"] }] } none [])
      [S "--flag=x"]).toOption.map (fun r => (r.1.log, r.2.log)) =
      some ([(S "OPT_g", S "_OPT_ISSET_")], [(S "OPT_flag", S "x")]) := by
  decide +kernel

/-- `-o=x`: with an old-style option in the tree, the second parser takes `x` for the value of `-o`, the
first takes `=x`. -/
theorem C45_short_equals :
    (bothParsers (.node { prog := S "prog", options := [{ strings := [S "-o"], complete := some [] }, { strings := [S "-old"] }] } none [])
      [S "-o=x"]).toOption.map (fun r => (r.1.log, r.2.log)) =
      some ([(S "OPT_o", S "=x")], [(S "OPT_o", S "x")]) := by
  decide +kernel

/-- A flag letter of a subcommand that is also a flag of the program, which passes its options on: the
first parser records it for both. -/
theorem C45_inherited_flag :
    (bothParsers (.node { prog := S "prog", inheritOptions := .val true, options := [{ strings := [S "-v", S "--version"] }] } (some 1)
        [.node { prog := S "run", options := [{ strings := [S "-v", S "--verbose"] }] } none []])
      [S "run", S "-v"]).toOption.map (fun r => (r.1.log, r.2.log)) =
      some ([(S "OPT_verbose", S "_OPT_ISSET_"), (S "OPT_version", S "_OPT_ISSET_")], [(S "OPT_verbose", S "_OPT_ISSET_")]) := by
  decide +kernel

/-- Without positionals and subcommands, the second parser records no positionals, the first does. -/
theorem C45_positionals :
    (bothParsers (.node { prog := S "prog", options := [{ strings := [S "-v"] }] } none [])
      [S "x"]).toOption.map (fun r => (r.1.positionals, r.2.positionals)) = some ([S "x", []], []) := by
  decide +kernel

/-- A subcommand `foo` that passes its options on and a sibling `foobar`: both parsers take
`prog foobar --file x` to give the option `--file` of `foo`, which `foobar` does not have. -/
theorem C46_name_prefix :
    (bothParsers (.node { prog := S "prog" } (some 1)
        [.node { prog := S "foo", inheritOptions := .val true, options := [{ strings := [S "--file"], complete := some [] }] } none [],
         .node { prog := S "foobar" } none []])
      [S "foobar", S "--file", S "x"]).toOption.map (fun r => (r.1.log, r.2.log)) =
      some ([(S "OPT_file", S "x")], [(S "OPT_file", S "x")]) := by
  decide +kernel

/-! ## A case that meets the hypotheses -/

/-- `prog [-v] FILE run [-o OUT]`, where `run` has the alias `r` and inherits `-v`. -/
def exampleRun : Cmd :=
  .node { prog := S "run", aliases := [S "r"], options := [{ strings := [S "-o", S "--out"], complete := some [] }] } none []

/-- See `exampleRun`. -/
def exampleRoot : Cmd :=
  .node { prog := S "prog", inheritOptions := .val true, options := [{ strings := [S "-v"] }], positionals := [{ number := 1 }] }
    (some 2) [exampleRun]

theorem example_at {parents : List Cmd} {c : Cmd} (h : At exampleRoot parents c) :
    (parents = [] ∧ c = exampleRoot) ∨ (parents = [exampleRoot] ∧ c = exampleRun) := by
  induction h with
  | root => exact Or.inl ⟨rfl, rfl⟩
  | @child parents c d _ hd ih =>
    rcases ih with ⟨rfl, rfl⟩ | ⟨rfl, rfl⟩
    · right; simp [exampleRoot, Cmd.children] at hd; exact ⟨rfl, hd⟩
    · simp [exampleRun, Cmd.children] at hd

/-- The line `prog x r -vofile ` reaches `run` and meets every hypothesis of the theorems above. -/
theorem C46_example :
    let its : List Item := [.pos (S "x"), .pos (S "r"), .attached (S "v") 'o' (S "file")]
    CleanTree exampleRoot ∧ CleanNames exampleRoot ∧ CleanOptions exampleRoot ∧
    (∀ parents c, At exampleRoot parents c → FlagsOnce parents c) ∧ (∃ blocks, bashBlocks exampleRoot = .ok blocks) ∧
    Reached exampleRoot (its.flatMap Item.positionals) [exampleRoot] exampleRun ∧
    ∃ optAt, KnowsOptions exampleRoot optAt ∧ ItemsValid (fun ps s => (optAt ps s).map Opt.kind) [] its := by
  intro its
  have hc : CleanTree exampleRoot := by
    refine ⟨?_, ?_, ?_, ?_, ?_⟩
    · intro parents c h d hd e he w _ _
      rcases example_at h with ⟨rfl, rfl⟩ | ⟨rfl, rfl⟩
      · simp [exampleRoot, Cmd.children] at hd he; rw [hd, he]
      · simp [exampleRun, Cmd.children] at hd
    · intro parents c h d hd
      rcases example_at h with ⟨rfl, rfl⟩ | ⟨rfl, rfl⟩
      · simp [exampleRoot, Cmd.children] at hd; subst hd; decide
      · simp [exampleRun, Cmd.children] at hd
    · intro parents c h
      rcases example_at h with ⟨rfl, rfl⟩ | ⟨rfl, rfl⟩ <;> decide
    · intro parents c h n hn
      rcases example_at h with ⟨rfl, rfl⟩ | ⟨rfl, rfl⟩
      · simp [exampleRoot, Cmd.sub] at hn; subst hn; decide
      · simp [exampleRun, Cmd.sub] at hn
    · intro parents c h hne
      rcases example_at h with ⟨rfl, rfl⟩ | ⟨rfl, rfl⟩
      · rfl
      · simp [exampleRun, Cmd.children] at hne
  have hn : CleanNames exampleRoot := by
    refine ⟨?_, ?_⟩
    · intro parents c h d hd
      rcases example_at h with ⟨rfl, rfl⟩ | ⟨rfl, rfl⟩
      · simp [exampleRoot, Cmd.children] at hd; subst hd; decide
      · simp [exampleRun, Cmd.children] at hd
    · intro parents c h d hd e he _ _
      rcases example_at h with ⟨rfl, rfl⟩ | ⟨rfl, rfl⟩
      · simp [exampleRoot, Cmd.children] at hd he; rw [hd, he]
      · simp [exampleRun, Cmd.children] at hd
  have ho : CleanOptions exampleRoot := by
    refine ⟨?_, ?_⟩
    · intro parents c h o ho s hs
      rcases example_at h with ⟨rfl, rfl⟩ | ⟨rfl, rfl⟩
      · simp [exampleRoot, Cmd.data] at ho; subst ho
        simp at hs; subst hs
        refine ⟨⟨by decide, 'v', [], rfl, by decide⟩, by decide⟩
      · simp [exampleRun, Cmd.data] at ho; subst ho
        simp at hs
        rcases hs with rfl | rfl
        · refine ⟨⟨by decide, 'o', [], rfl, by decide⟩, by decide⟩
        · refine ⟨⟨by decide, '-', S "out", rfl, by decide⟩, by decide⟩
    · intro parents c h s o o' h1 h2
      rcases example_at h with ⟨rfl, rfl⟩ | ⟨rfl, rfl⟩
      · have a := h1.1; have b := h2.1
        simp [exampleRoot, Cmd.data] at a b; rw [a, b]
      · have a := h1.1; have b := h2.1
        simp [exampleRun, Cmd.data] at a b; rw [a, b]
  have hr : Reached exampleRoot (its.flatMap Item.positionals) [exampleRoot] exampleRun := by
    have h1 : Reached exampleRoot ([] ++ [S "x"]) [] exampleRoot := Reached.word _ Reached.start (by decide)
    exact Reached.sub (c := exampleRoot) (d := exampleRun) h1 (by decide) (by simp [exampleRoot, Cmd.children]) (Or.inr (Or.inl (by decide)))
  refine ⟨hc, hn, ho, ?_, ⟨_, rfl⟩, hr, ?_⟩
  · intro parents c h l1 e l2 s o hl ho1 hk hs hso e' he' o' ho' hso'
    rcases example_at h with ⟨rfl, rfl⟩ | ⟨rfl, rfl⟩
    · have : inheritedFrom [] exampleRoot = [([], exampleRoot)] := rfl
      rw [this] at hl
      have hlen := congrArg List.length hl
      simp at hlen
      have : l2 = [] := List.eq_nil_of_length_eq_zero (by omega)
      subst this; simp at he'
    · have hi : inheritedFrom [exampleRoot] exampleRun = [([exampleRoot], exampleRun), ([], exampleRoot)] := rfl
      rw [hi] at hl
      cases l1 with
      | nil =>
        simp at hl
        rw [← hl.1] at ho1
        simp [exampleRun, Cmd.data] at ho1
        subst ho1; simp at hk
      | cons a l1 =>
        have hlen := congrArg List.length hl
        simp at hlen
        have : l2 = [] := List.eq_nil_of_length_eq_zero (by omega)
        subst this; simp at he'
  · obtain ⟨optAt, hopt⟩ := knowsOptions_exists exampleRoot hc ho
    refine ⟨optAt, hopt, ?_⟩
    have hi : inheritedFrom [exampleRoot] exampleRun = [([exampleRoot], exampleRun), ([], exampleRoot)] := rfl
    have hov : optAt [S "x", S "r"] (S "-v") = some { strings := [S "-v"] } := by
      refine (hopt _ _ _ hr _ _).mpr ⟨[([exampleRoot], exampleRun)], ([], exampleRoot), [], hi, ⟨by simp [exampleRoot, Cmd.data], Or.inl (by simp)⟩, ?_⟩
      intro e' he' o' h
      simp at he'; subst he'
      have h1 := h.1
      simp [exampleRun, Cmd.data] at h1; subst h1
      rcases h.2 with h2 | ⟨h2, -⟩
      · revert h2; decide
      · simp [exampleRun, Cmd.data] at h2
    have hoo : optAt [S "x", S "r"] (S "-o") = some { strings := [S "-o", S "--out"], complete := some [] } := by
      exact (hopt _ _ _ hr _ _).mpr ⟨[], ([exampleRoot], exampleRun), [([], exampleRoot)], hi,
        ⟨by simp [exampleRun, Cmd.data], Or.inl (by simp)⟩, by simp⟩
    have hno : optAt [S "x", S "r"] (S "-vofile") = none := by
      cases hx : optAt [S "x", S "r"] (S "-vofile") with
      | none => rfl
      | some o =>
        exfalso
        obtain ⟨l1, e, l2, h1, h2, -⟩ := (hopt _ _ _ hr _ _).mp hx
        have hm : e ∈ inheritedFrom [exampleRoot] exampleRun := by rw [h1]; simp
        rw [hi] at hm
        simp at hm
        rcases hm with rfl | rfl
        · have h3 := h2.1
          simp [exampleRun, Cmd.data] at h3; subst h3
          rcases h2.2 with h2 | ⟨h2, -⟩
          · revert h2; decide
          · simp [exampleRun, Cmd.data] at h2
        · have h3 := h2.1
          simp [exampleRoot, Cmd.data] at h3; subst h3
          rcases h2.2 with h2 | ⟨h2, -⟩
          · revert h2; decide
          · simp [exampleRoot, Cmd.data] at h2
    refine ⟨?_, ?_, ⟨by decide, ?_, by decide, ?_, ?_, ?_⟩, trivial⟩
    · intro c cs h; simp [S] at h
    · intro c cs h; simp [S] at h
    · intro c hc
      simp [S] at hc; subst hc
      show (optAt [S "x", S "r"] (S "-v")).map Opt.kind = _
      rw [hov]; rfl
    · left
      show (optAt [S "x", S "r"] (S "-o")).map Opt.kind = _
      rw [hoo]; rfl
    · intro p r h _
      exfalso
      have : '=' ∈ S "-vofile" := by
        show '=' ∈ '-' :: (S "v" ++ 'o' :: S "file")
        rw [h]; simp
      revert this; decide
    · intro _ _
      show (optAt [S "x", S "r"] (S "-vofile")).map Opt.kind = _
      rw [hno]; rfl

end CC
