import Verif.Props.BashFunction
/-!
# C106: the arguments of a command that is itself a positional
-/

namespace CC

theorem findIdx_first {l before after : List Str} {w : Str} (h : l = before ++ w :: after) (hw : w ∉ before) :
    l.findIdx? (fun x => x == w) = some before.length := by
  subst h
  induction before with
  | nil => simp [List.findIdx?_cons]
  | cons a b ih =>
    have ha : (a == w) = false := by simpa using fun e => hw (by simp [e])
    rw [List.cons_append, List.findIdx?_cons, ha, ih (fun h => hw (List.mem_cons_of_mem _ h))]
    simp

/-- The function of a command hands the line over. -/
theorem commandArg_some {ln : BLine} {parents : List Cmd} {c : Cmd} {p : Pos} (hp : p ∈ c.data.positionals) (hca : IsCommandArg p)
    (honly : ∀ q ∈ c.data.positionals, IsCommandArg q → q = p) (hplace : 1 ≤ PosPlace parents p) (hin : PosPlace parents p < ln.positionals.length)
    {w : Str} (hw : ln.positionals[PosPlace parents p - 1]? = some w) {before after : List Str} (hline : ln.compWords = before ++ w :: after) (hfirst : w ∉ before) :
    runCommandArg ln parents c = some before.length := by
  have iff : ∀ q : Pos, q.isCommandArg = true ↔ IsCommandArg q := by intro q; simp [Pos.isCommandArg, IsCommandArg]
  unfold runCommandArg
  cases hf : c.data.positionals.find? Pos.isCommandArg with
  | none =>
    rw [List.find?_eq_none] at hf
    exact absurd ((iff p).mpr hca) (hf p hp)
  | some q =>
    have := honly q (List.mem_of_find?_eq_some hf) ((iff q).mp (List.find?_some hf))
    subst this
    have hnum : positionalNum parents q.number = PosPlace parents q + 1 := by
      simp only [positionalNum, positionalIndex_eq, PosPlace]; omega
    simp only [hnum]
    rw [if_pos (by omega), if_pos (by omega)]
    have : PosPlace parents q + 1 - 2 = PosPlace parents q - 1 := by omega
    rw [this, List.getD_eq_getElem?_getD, hw]
    exact findIdx_first hline hfirst

theorem runOwn_commandArg {E : BEnv} {ln : BLine} {parents : List Cmd} {c : Cmd} {i : Nat} (h : runCommandArg ln parents c = some i) :
    runOwn E ln parents c = .ok ([.commandArg i], true) := by
  unfold runOwn
  rw [h]

section
variable {root : Cmd} {parse : List Str → Str → List Str → BState} (hparse : IsParser root parse) (hc : CleanTree root) (hn : CleanNames root)
  (ho : CleanOptions root) {optAt : List Str → Str → Option Opt} (hopt : KnowsOptions root optAt)
  {its : List Item} {e : Ending} {parents : List Cmd} {c : Cmd} (ht : Typed root optAt its e parents c)
include hparse hc hn ho hopt ht

/-- **C106 (partial)** A positional `p` of the command that the line leads to is the arguments of the command that is the positional before (at the place `PosPlace - 1`).
If that command `w` was typed and the words that count as positionals (`its` and `e` and, unless it looks like an option or is the argument of one, the word at the
cursor) reach the place of `p`, then the line from the word `w` on is completed as the line of the command `w`, and nothing else is done: not the options of the
command, not its other positionals. Missing: `w` must not occur in the line before (false otherwise, `C67_command_twice`), and a first argument that looks like an option
does not count (`C106_dash_first`); a command has one such positional. -/
theorem C106_delegated_partial (E : BEnv) (prog cur : Str) (post : List Str) {parents' : List Cmd} {c' : Cmd} {ps counted : List Str}
    (hcounted : counted = its.flatMap Item.positionals ++ endingPositionals cur post e)
    (hps : ps <+: counted) (hr : Reached root ps parents' c')
    (hsub : ∀ n v, SubPlace parents' c' n → counted[n]? = some v → ∀ d ∈ c'.children, ¬ SelectsSub c' d v)
    {p : Pos} (hp : p ∈ c'.data.positionals) (hca : IsCommandArg p) (honly : ∀ q ∈ c'.data.positionals, IsCommandArg q → q = p)
    (hplace : 1 ≤ PosPlace parents' p) (hin : PosPlace parents' p < counted.length)
    {w : Str} (hw : counted[PosPlace parents' p - 1]? = some w)
    {before after : List Str} (hline : prog :: typedWords its e ++ cur :: post = before ++ w :: after) (hfirst : w ∉ before) :
    bashComplete E parse prog root (typedWords its e) cur post = some (.ok ([.commandArg before.length], true)) := by
  subst hcounted
  have hat := reached_at ((reached_iff hc _ _ _).mp hr)
  have hworth : WorthCompleting c' := by
    refine Or.inr (Or.inl ⟨p, hp, ?_⟩)
    intro s hs
    rw [hca] at hs
    cases hs
    exact ⟨by decide +kernel, fun h => absurd h (by decide +kernel)⟩
  obtain ⟨ln, hrun, hwords, -, -, -, hpos⟩ := script_line_eq hparse hc hn ho hopt ht E prog cur post rfl (ps := ps) hps hr hworth hsub
  rw [hrun]
  congr 1
  refine tryAll_head ?_ _
  rcases hpos with hpos | ⟨hno, -⟩
  · refine runOwn_commandArg (commandArg_some hp hca honly hplace (by rw [hpos]; exact hin) (by rw [hpos]; exact hw) (hwords.trans hline) hfirst)
  · exact absurd hp (by rw [no_pos hno hat]; simp)

end

/-! ## Lines where the first argument looks like an option -/

/-- `prog [-v] COMMAND ARGS...`. -/
def sudoTree : Cmd :=
  .node { prog := S "prog", options := [{ strings := [S "-v"] }]
          positionals := [{ number := 1, complete := [.str (S "command")] }, { number := 2, complete := [.str (S "command_arg")], repeatable := true }] } none []

/-- **C106** For the first argument of the command, words that look like options are not handed over: `prog ls -<TAB>x` is completed with the options of `prog`;
after another argument it is handed over. -/
theorem C106_dash_first :
    tryScript sudoTree [S "ls"] (S "-l") = some (some ([.strings (subcommandPath [] sudoTree)], false)) ∧
    tryScript sudoTree [S "ls", S "x"] (S "-l") = some (some ([.commandArg 1], true)) := by
  decide +kernel

/-- **C106** If the command occurs before as the argument of an option, the line is handed over from there: for `prog -f ls ls x`
it begins at the argument of `-f`. -/
theorem C106_option_value :
    tryScript (.node { prog := S "prog", options := [neededArg "-f"], positionals := [{ number := 1, complete := [.str (S "command")] }, { number := 2, complete := [.str (S "command_arg")], repeatable := true }] } none [])
      [S "-f", S "ls", S "ls"] (S "x") = some (some ([.commandArg 2], true)) := by
  decide +kernel

/-! ## A case that meets the hypotheses -/

theorem sudo_at {parents : List Cmd} {c : Cmd} (h : At sudoTree parents c) : parents = [] ∧ c = sudoTree := by
  induction h with
  | root => exact ⟨rfl, rfl⟩
  | child _ hd ih =>
    obtain ⟨rfl, rfl⟩ := ih
    simp [sudoTree, Cmd.children] at hd

theorem sudo_clean : CleanTree sudoTree ∧ CleanNames sudoTree ∧ CleanOptions sudoTree := by
  have hch : sudoTree.children = [] := rfl
  refine ⟨⟨?_, ?_, ?_, ?_, ?_⟩, ⟨?_, ?_⟩, ⟨?_, ?_⟩⟩
  · intro parents c h d hd
    obtain ⟨rfl, rfl⟩ := sudo_at h
    rw [hch] at hd; cases hd
  · intro parents c h d hd
    obtain ⟨rfl, rfl⟩ := sudo_at h
    rw [hch] at hd; cases hd
  · intro parents c h
    obtain ⟨rfl, rfl⟩ := sudo_at h
    decide
  · intro parents c h n hn
    obtain ⟨rfl, rfl⟩ := sudo_at h
    simp [sudoTree, Cmd.sub] at hn
  · intro parents c h hne
    obtain ⟨rfl, rfl⟩ := sudo_at h
    exact absurd hch hne
  · intro parents c h d hd
    obtain ⟨rfl, rfl⟩ := sudo_at h
    rw [hch] at hd; cases hd
  · intro parents c h d hd
    obtain ⟨rfl, rfl⟩ := sudo_at h
    rw [hch] at hd; cases hd
  · intro parents c h o ho s hs
    obtain ⟨rfl, rfl⟩ := sudo_at h
    simp [sudoTree, Cmd.data] at ho; subst ho
    simp at hs; subst hs
    exact ⟨⟨by decide, 'v', [], rfl, by decide⟩, by decide⟩
  · intro parents c h s o o' h1 h2
    obtain ⟨rfl, rfl⟩ := sudo_at h
    have a := h1.1
    have b := h2.1
    simp [sudoTree, Cmd.data] at a b
    rw [a, b]

/-- For the line `prog ls x`, every word after it is completed as an argument of `ls`, which is word 1. -/
theorem C106_example : ∃ parse, IsParser sudoTree parse ∧
    ∀ cur post, bashComplete textEnv parse (S "prog") sudoTree [S "ls", S "x"] cur post = some (.ok ([.commandArg 1], true)) := by
  obtain ⟨hc, hn, ho⟩ := sudo_clean
  obtain ⟨optAt, hopt⟩ := knowsOptions_exists sudoTree hc ho
  have hparse : ∃ parse, IsParser sudoTree parse := by
    cases h : bashBlocks sudoTree with
    | ok b => exact ⟨_, b, h, Or.inr rfl⟩
    | error e =>
      have : (bashBlocks sudoTree).toOption.isSome = true := by decide +kernel
      rw [h] at this; cases this
  obtain ⟨parse, hparse⟩ := hparse
  refine ⟨parse, hparse, ?_⟩
  intro cur post
  have h1 : Reached sudoTree ([] ++ [S "ls"]) [] sudoTree := Reached.word _ Reached.start (by decide)
  have hr : Reached sudoTree ([] ++ [S "ls"] ++ [S "x"]) [] sudoTree := Reached.word _ h1 (by decide)
  have hitems := script_items optAt [S "ls", S "x"] (by
    intro w hw a r h
    simp at hw
    rcases hw with rfl | rfl <;> simp [S] at h) []
  have ht : Typed sudoTree optAt ([S "ls", S "x"].map Item.pos) .done [] sudoTree := ⟨hr, hitems, trivial⟩
  refine C106_delegated_partial hparse hc hn ho hopt ht textEnv (S "prog") cur post (ps := [S "ls", S "x"]) rfl (List.prefix_append ..) hr ?_
    (p := { number := 2, complete := [.str (S "command_arg")], repeatable := true }) (by simp [sudoTree, Cmd.data]) rfl ?_ (by decide) ?_ (w := S "ls") ?_
    (before := [S "prog"]) (after := [S "x"] ++ cur :: post) rfl (by decide)
  · intro n v _ _ d hd
    cases hd
  · intro q hq hca
    simp [sudoTree, Cmd.data] at hq
    rcases hq with rfl | rfl
    · exact absurd hca (by simp [IsCommandArg, S])
    · rfl
  · show 1 < ([S "ls", S "x"] ++ _).length
    simp
  · rfl

end CC
