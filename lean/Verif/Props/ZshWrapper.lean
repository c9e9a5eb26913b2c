import Verif.Lemmas.ZshWrapperLine
/-!
# C88: the wrapped command's completion sees the line without the program's own options (Zsh)

A program may wrap another command. Its own options and their arguments are for the program; everything else is for
the wrapped command. The generated function removes the former from the line and calls the completion function of
the wrapped command. `Own` and `Strip` in `Spec/ZshWrapperSpec.lean` say what is to be removed.
-/

namespace CC
open ZshWrap

/-- The tests of the generated function succeed when Zsh says so. -/
def Faithful (holds : WrapTest → Str → Bool) : Prop := ∀ t w, holds t w = true ↔ Holds t w

/-- There are tests like that. -/
theorem faithful_exists : ∃ holds, Faithful holds := by
  classical
  exact ⟨fun t w => decide (Holds t w), fun t w => by simp⟩

/-- There is a wrapper if a command is wrapped, and only then. -/
theorem C88_wrapper (holds : WrapTest → Str → Bool) (c : Cmd) :
    (zshWrapper holds c).isSome = true ↔ ∃ x, c.data.wraps = some x ∧ x ≠ [] := by
  unfold zshWrapper
  cases h : c.data.wraps with
  | none => simp
  | some x => cases x <;> simp

variable {holds : WrapTest → Str → Bool} (hh : Faithful holds) {c : Cmd} (hw : Writable c.data.options)
  {f : WrapLine → WrapLine} (hf : zshWrapper holds c = some f) {wraps : Str} (hx : c.data.wraps = some wraps)

include hf hx in
theorem run_eq : f = wrapRun (wrapHit holds (wrapBranches (wrapOpts c))) wraps := by
  unfold zshWrapper at hf
  rw [hx] at hf
  cases wraps with
  | nil => cases hf
  | cons a r => simpa using hf.symm

include hh hw hf hx in
/-- The wrapped command finds its own name and behind it the words of the line that are neither options of the program nor
their arguments, in the same order. Missing: that the words behind `--` are kept, see `C88_double_dash`; and special
characters in names, see `C88_caret` and `C88_three_dashes`. -/
theorem C88_words_partial {name : Str} (hname : name.head? ≠ some '-') {rest k : List Str} {p : Bool}
    (hs : Strip c.data.options rest k p) (current : Nat) :
    (f ⟨name :: rest, current⟩).words = wraps :: k := by
  have hhit := fun w => hit_iff hw hh w
  rw [run_eq hf hx]
  simp only [wrapRun]
  rw [kept_strip hhit (.keep (operand_not_own hw hname) hs) 1]
  rfl

include hh hw hf hx in
/-- With the cursor on a word that is left to the wrapped command, the cursor is on the same word afterwards, with the same
words in front of it and behind it except for options of the program and their arguments. Missing: what happens if the
cursor is on an option of the program or its argument, see `C88_own_argument` and `C88_own_option`. -/
theorem C88_cursor_partial {name : Str} (hname : name.head? ≠ some '-') {before kb after ka : List Str} {cur : Str} {p : Bool}
    (hb : Strip c.data.options before kb false) (hcur : ∀ n, ¬ Own c.data.options cur n) (ha : Strip c.data.options after ka p) :
    f ⟨name :: (before ++ cur :: after), before.length + 2⟩ = ⟨wraps :: (kb ++ cur :: ka), kb.length + 2⟩ := by
  have hhit := fun w => hit_iff hw hh w
  have h1 := C88_words_partial hh hw hf hx hname (strip_append hb (.keep hcur ha)) (before.length + 2)
  have h2 := adjust_strip hhit (.keep (operand_not_own hw hname) hb) cur after 1 (before.length + 2) (by simp; omega)
  have h3 : (f ⟨name :: (before ++ cur :: after), before.length + 2⟩).current = kb.length + 2 := by
    rw [run_eq hf hx]
    simp only [wrapRun]
    simp only [List.cons_append, List.length_cons] at h2
    omega
  cases hr : f ⟨name :: (before ++ cur :: after), before.length + 2⟩ with
  | mk ws n =>
    rw [hr] at h1 h3
    simp only at h1 h3
    rw [h1, h3]

include hw in
/-- What is left of a line is always defined, and there is only one way to read it. -/
theorem C88_strip (ws : List Str) : ∃ k p, Strip c.data.options ws k p ∧ ∀ k' p', Strip c.data.options ws k' p' → k' = k := by
  obtain ⟨holds, hh⟩ := faithful_exists
  have hhit := fun w => hit_iff hw hh w
  obtain ⟨k, p, h⟩ := strip_total c.data.options ws
  exact ⟨k, p, h, fun k' p' h' => (kept_strip hhit h' 1).symm.trans (kept_strip hhit h 1)⟩

/-! ## Words that are not options of the program -/

include hw in
theorem long_not_own {r : Str} (he : '=' ∉ r) (hn : ∀ o ∈ c.data.options, ('-' :: '-' :: r) ∉ o.strings) (n : Nat) :
    ¬ Own c.data.options ('-' :: '-' :: r) n := by
  have hdash : ∀ o, ¬ Letter c.data.options '-' o := fun o h => (inBrackets_iff (letter_brackets hw h)).2.2.1 rfl
  rintro (h | ⟨-, h⟩)
  · rw [ownNamed_iff] at h
    have h1 : ∀ k, ¬ Whole c.data.options k ('-' :: '-' :: r) := fun k ⟨o, h, _⟩ => hn o h.1 h.2.1
    have h2 : ∀ k, ¬ ValueOf c.data.options k ('-' :: '-' :: r) := by
      rintro k ⟨s, o, v, -, -, h⟩
      have : '=' ∈ '-' :: '-' :: r := by rw [h]; simp
      simp [he] at this
    simp [h1, h2] at h
  · rw [ownCluster_iff] at h
    have h1 : ∀ k t, ¬ Short c.data.options k t ('-' :: '-' :: r) := by
      rintro k t ⟨cs, d, v, o, e, hfl, hd, -⟩
      cases cs with
      | nil => simp at e; rw [← e.1] at hd; exact hdash _ hd
      | cons x xs =>
        simp at e
        obtain ⟨o2, h3, -⟩ := hfl x (by simp)
        rw [← e.1] at h3
        exact hdash _ h3
    simp only [h1, and_false, or_false, false_or] at h
    obtain ⟨-, cs, e, -, hfl⟩ := h
    simp at e
    subst e
    obtain ⟨o2, h3, -⟩ := hfl '-' (by simp)
    exact hdash _ h3

/-! ## A program -/

def userOption : Opt := { strings := [S "-u", S "--user"], complete := some [] }
def dryOption : Opt := { strings := [S "-n", S "-dry", S "--dry-run"] }
def colorOption : Opt := { strings := [S "-c", S "--color"], complete := some [], optionalArg := true }

/-- A program that wraps Git, with an option of each kind. -/
def wrapperCmd : Cmd := .node { prog := S "mygit", wraps := some (S "git"), options := [userOption, dryOption, colorOption] } none []

theorem wrapperCmd_writable : Writable wrapperCmd.data.options := by
  refine ⟨?_, ?_⟩
  · intro o ho s hs
    have hos : wrapperCmd.data.options = [userOption, dryOption, colorOption] := rfl
    rw [hos] at ho
    simp only [List.mem_cons, List.not_mem_nil, or_false] at ho
    rcases ho with rfl | rfl | rfl
    · simp only [userOption, List.mem_cons, List.not_mem_nil, or_false] at hs
      rcases hs with rfl | rfl
      · exact Or.inl ⟨'u', rfl, by decide⟩
      · exact Or.inr (Or.inr ⟨S "user", rfl, by decide, by decide, by decide⟩)
    · simp only [dryOption, List.mem_cons, List.not_mem_nil, or_false] at hs
      rcases hs with rfl | rfl | rfl
      · exact Or.inl ⟨'n', rfl, by decide⟩
      · exact Or.inr (Or.inl ⟨S "dry", rfl, by decide, by decide, by decide⟩)
      · exact Or.inr (Or.inr ⟨S "dry-run", rfl, by decide, by decide, by decide⟩)
    · simp only [colorOption, List.mem_cons, List.not_mem_nil, or_false] at hs
      rcases hs with rfl | rfl
      · exact Or.inl ⟨'c', rfl, by decide⟩
      · exact Or.inr (Or.inr ⟨S "color", rfl, by decide, by decide, by decide⟩)
  · decide

theorem user_mem : userOption ∈ wrapperCmd.data.options := by decide
theorem dry_mem : dryOption ∈ wrapperCmd.data.options := by decide
theorem color_mem : colorOption ∈ wrapperCmd.data.options := by decide

theorem flag_n : Flags wrapperCmd.data.options ['n'] := by
  intro d hd
  simp at hd; subst hd
  exact ⟨dryOption, ⟨dry_mem, by decide⟩, rfl⟩

theorem cluster_own {w : Str} {n : Nat} (h : OwnCluster wrapperCmd.data.options w n) (he : '=' ∉ w) (hl : ∀ o ∈ wrapperCmd.data.options, w ∉ o.strings ∨ w.length ≤ 2) :
    Own wrapperCmd.data.options w n := by
  refine Or.inr ⟨fun m hm => ?_, h⟩
  rw [ownNamed_iff] at hm
  have h1 : ∀ k, ¬ Whole wrapperCmd.data.options k w := by
    rintro k ⟨o, ⟨h1, h2, h3⟩, -⟩
    rcases hl o h1 with h | h
    · exact h h2
    · omega
  have h2 : ∀ k, ¬ ValueOf wrapperCmd.data.options k w := by
    rintro k ⟨s, o, v, -, -, h⟩
    rw [h] at he; simp at he
  simp [h1, h2] at hm

/-- `-nu root`: a flag and an option with its argument. -/
theorem own_nu : Own wrapperCmd.data.options (S "-nu") 2 :=
  cluster_own (.withNext flag_n (c := 'u') (o := userOption) ⟨user_mem, by decide⟩ rfl) (by decide) (by decide)

theorem own_n : Own wrapperCmd.data.options (S "-n") 1 :=
  cluster_own (.flags (cs := ['n']) (by simp) flag_n) (by decide) (by decide)

theorem own_color : Own wrapperCmd.data.options (S "--color=always") 1 :=
  Or.inl (.withValue (n := S "--color") (S "always") (o := colorOption) ⟨color_mem, by decide, by decide⟩ (by decide))

theorem own_dry : Own wrapperCmd.data.options (S "-dry") 1 :=
  Or.inl (.alone (o := dryOption) ⟨dry_mem, by decide, by decide⟩ (by decide))

theorem own_user : Own wrapperCmd.data.options (S "--user") 2 :=
  Or.inl (.withNext (o := userOption) ⟨user_mem, by decide, by decide⟩ (by decide))

theorem foreign_force (n : Nat) : ¬ Own wrapperCmd.data.options (S "--force") n :=
  long_not_own wrapperCmd_writable (r := S "force") (by decide) (by decide) n

theorem foreign_dashes (n : Nat) : ¬ Own wrapperCmd.data.options (S "--") n :=
  long_not_own wrapperCmd_writable (r := []) (by decide) (by decide) n

theorem foreign_word {w : Str} (h : w.head? ≠ some '-') (n : Nat) : ¬ Own wrapperCmd.data.options w n := operand_not_own wrapperCmd_writable h n

/-- The wrapper of the program. -/
def wrapperOf (holds : WrapTest → Str → Bool) : WrapLine → WrapLine := wrapRun (wrapHit holds (wrapBranches (wrapOpts wrapperCmd))) (S "git")

theorem wrapperOf_eq (holds : WrapTest → Str → Bool) : zshWrapper holds wrapperCmd = some (wrapperOf holds) := rfl

include hh in
/-- `mygit -nu root push --color=always ori| --force -dry`: Git completes `git push ori| --force`. -/
theorem C88_example : wrapperOf holds ⟨[S "mygit", S "-nu", S "root", S "push", S "--color=always", S "ori", S "--force", S "-dry"], 6⟩ =
    ⟨[S "git", S "push", S "ori", S "--force"], 3⟩ :=
  C88_cursor_partial (c := wrapperCmd) (name := S "mygit") (before := [S "-nu", S "root", S "push", S "--color=always"]) (kb := [S "push"])
    (cur := S "ori") (after := [S "--force", S "-dry"]) (ka := [S "--force"]) (p := false) hh wrapperCmd_writable (wrapperOf_eq holds) rfl (by decide)
    (.two own_nu (.keep (foreign_word (by decide)) (.one own_color .nil))) (foreign_word (by decide))
    (.keep foreign_force (.one own_dry .nil))

/-! ## Where the property fails -/

include hh in
/-- Behind `--` nothing is an option any more, yet a word there that looks like one is removed: with
`mygit -- -n file`, Git gets `git -- file`. -/
theorem C88_double_dash (current : Nat) :
    (wrapperOf holds ⟨[S "mygit", S "--", S "-n", S "file"], current⟩).words = [S "git", S "--", S "file"] :=
  C88_words_partial (c := wrapperCmd) (name := S "mygit") (rest := [S "--", S "-n", S "file"]) (k := [S "--", S "file"]) (p := false)
    hh wrapperCmd_writable (wrapperOf_eq holds) rfl (by decide)
    (.keep foreign_dashes (.one own_n (.keep (foreign_word (by decide)) .nil))) current

include hh in
/-- With the cursor on an argument of the program's own option, the completion of the wrapped command is called as well, with
the cursor on another word: for `mygit --user ro| push` it is to complete `git push|`. -/
theorem C88_own_argument : wrapperOf holds ⟨[S "mygit", S "--user", S "ro", S "push"], 3⟩ = ⟨[S "git", S "push"], 2⟩ := by
  have h1 := C88_words_partial (c := wrapperCmd) (name := S "mygit") (rest := [S "--user", S "ro", S "push"]) (k := [S "push"]) (p := false)
    hh wrapperCmd_writable (wrapperOf_eq holds) rfl (by decide) (.two own_user (.keep (foreign_word (by decide)) .nil)) 3
  have h2 := adjust_strip (fun w => hit_iff wrapperCmd_writable hh w) (b := [S "mygit", S "--user"]) (k := [S "mygit"]) (p := true)
    (.keep (foreign_word (by decide)) (.awaits own_user)) (S "ro") [S "push"] 1 3 rfl
  have h3 : (wrapperOf holds ⟨[S "mygit", S "--user", S "ro", S "push"], 3⟩).current = 2 := by
    simp only [wrapperOf, wrapRun]
    simp only [List.cons_append, List.nil_append, List.length_cons, List.length_nil] at h2
    omega
  cases hr : wrapperOf holds ⟨[S "mygit", S "--user", S "ro", S "push"], 3⟩ with
  | mk ws n =>
    rw [hr] at h1 h3
    simp only at h1 h3
    rw [h1, h3]

include hh in
/-- With the cursor on an option of the program, the word is gone, and the wrapped command is to complete a word that does not
exist: for `mygit push -n|`, the cursor is on the third of two words. -/
theorem C88_own_option : wrapperOf holds ⟨[S "mygit", S "push", S "-n"], 3⟩ = ⟨[S "git", S "push"], 3⟩ := by
  have h1 := C88_words_partial (c := wrapperCmd) (name := S "mygit") (rest := [S "push", S "-n"]) (k := [S "push"]) (p := false)
    hh wrapperCmd_writable (wrapperOf_eq holds) rfl (by decide) (.keep (foreign_word (by decide)) (.one own_n .nil)) 3
  have h2 := adjust_strip (fun w => hit_iff wrapperCmd_writable hh w) (b := [S "mygit", S "push"]) (k := [S "mygit", S "push"]) (p := false)
    (.keep (foreign_word (by decide)) (.keep (foreign_word (by decide)) .nil)) (S "-n") [] 1 3 rfl
  have h3 : (wrapperOf holds ⟨[S "mygit", S "push", S "-n"], 3⟩).current = 3 := by
    simp only [wrapperOf, wrapRun]
    simp only [List.cons_append, List.nil_append, List.length_cons, List.length_nil] at h2
    omega
  cases hr : wrapperOf holds ⟨[S "mygit", S "push", S "-n"], 3⟩ with
  | mk ws n =>
    rw [hr] at h1 h3
    simp only at h1 h3
    rw [h1, h3]

/-- A program with the flags `-^` and `-a`. -/
def caretCmd : Cmd := .node { prog := S "p", wraps := some (S "git"), options := [{ strings := [S "-^"] }, { strings := [S "-a"] }] } none []

include hh in
/-- Short options are written into brackets as they are, where `^` means everything else: the program's own flag `-a` is kept,
Git's option `-b` is removed. -/
theorem C88_caret : ∃ f, zshWrapper holds caretCmd = some f ∧
    (∀ n, (f ⟨[S "p", S "-a"], n⟩).words = [S "git", S "-a"]) ∧ (∀ n, (f ⟨[S "p", S "-b"], n⟩).words = [S "git"]) := by
  have hb : wrapBranches (wrapOpts caretCmd) = [⟨.regex (S "^-[^a]+$"), false⟩] := by rfl
  have hr : readEre (S "^-[^a]+$") = some [(.chr '-', none), (.set true ['a'], some '+')] := by decide +kernel
  have h1 : ∀ w, Holds (.regex (S "^-[^a]+$")) w ↔ ∃ p, w = '-' :: p ∧ p ≠ [] ∧ 'a' ∉ p := by
    intro w
    simp only [Holds, hr, Option.some.injEq]
    constructor
    · rintro ⟨_, rfl, d, r, rfl, rfl, p, q, rfl, hp, ha, rfl⟩
      refine ⟨p, by simp, by simpa using hp, fun hm => ?_⟩
      have := ha 'a' hm
      simp [Atom.Has] at this
    · rintro ⟨p, rfl, hp, ha⟩
      refine ⟨_, rfl, '-', p, rfl, rfl, p, [], by simp, fun _ => hp, fun x hx => ?_, rfl⟩
      simp only [Atom.Has, if_true, List.mem_cons, List.not_mem_nil, or_false]
      rintro rfl
      exact ha hx
  have hp : holds (.regex (S "^-[^a]+$")) (S "p") = false := by
    rw [← Bool.not_eq_true, hh, h1]; rintro ⟨p, h, -⟩; cases h
  have ha : holds (.regex (S "^-[^a]+$")) (S "-a") = false := by
    rw [← Bool.not_eq_true, hh, h1]; rintro ⟨p, h, -, hn⟩
    have h2 : ['-', 'a'] = '-' :: p := h
    simp at h2; exact hn (by rw [← h2]; simp)
  have hb2 : holds (.regex (S "^-[^a]+$")) (S "-b") = true := by
    rw [hh, h1]; exact ⟨['b'], rfl, by simp, by decide⟩
  have hits : ∀ w, wrapHit holds (wrapBranches (wrapOpts caretCmd)) w = if holds (.regex (S "^-[^a]+$")) w then some false else none := by
    intro w
    rw [hb]
    cases h : holds (.regex (S "^-[^a]+$")) w <;> simp [wrapHit, h]
  have e1 : wrapHit holds (wrapBranches (wrapOpts caretCmd)) (S "p") = none := by rw [hits, hp]; rfl
  have e2 : wrapHit holds (wrapBranches (wrapOpts caretCmd)) (S "-a") = none := by rw [hits, ha]; rfl
  have e3 : wrapHit holds (wrapBranches (wrapOpts caretCmd)) (S "-b") = some false := by rw [hits, hb2]; rfl
  refine ⟨_, rfl, fun n => ?_, fun n => ?_⟩
  · simp only [wrapRun, delete_none e1, delete_none e2]
    rfl
  · simp only [wrapRun, delete_none e1, delete_one e3]
    rfl

/-- A program with the flag `---all`, which is a valid option string. -/
def dashesCmd : Cmd := .node { prog := S "p", wraps := some (S "git"), options := [{ strings := [S "---all"] }] } none []

include hh in
/-- All dashes are taken off a name and two are put back: the program's own option `---all` is kept, Git's option `--all` is
removed. -/
theorem C88_three_dashes : isValidOptionString (S "---all") = true ∧ ∃ f, zshWrapper holds dashesCmd = some f ∧
    (∀ n, (f ⟨[S "p", S "---all"], n⟩).words = [S "git", S "---all"]) ∧ (∀ n, (f ⟨[S "p", S "--all"], n⟩).words = [S "git"]) := by
  have hb : wrapBranches (wrapOpts dashesCmd) = [⟨.glob (makeLongOptsPattern [S "--all"] .none), false⟩] := by rfl
  have h1 : ∀ w, Holds (.glob (makeLongOptsPattern [S "--all"] .none)) w ↔ w = S "--all" := by
    intro w
    rw [pattern_none (by simp)]
    · simp
    · intro s hs
      simp at hs; subst hs
      exact Or.inr ⟨S "all", rfl, by decide, by decide, by decide⟩
  generalize makeLongOptsPattern [S "--all"] .none = pat at hb h1
  have hp : holds (.glob pat) (S "p") = false := by rw [← Bool.not_eq_true, hh, h1]; decide
  have ha : holds (.glob pat) (S "---all") = false := by rw [← Bool.not_eq_true, hh, h1]; decide
  have hb2 : holds (.glob pat) (S "--all") = true := by rw [hh, h1]
  have hits : ∀ w, wrapHit holds (wrapBranches (wrapOpts dashesCmd)) w = if holds (.glob pat) w then some false else none := by
    intro w
    rw [hb]
    cases h : holds (.glob pat) w <;> simp [wrapHit, h]
  have e1 : wrapHit holds (wrapBranches (wrapOpts dashesCmd)) (S "p") = none := by rw [hits, hp]; rfl
  have e2 : wrapHit holds (wrapBranches (wrapOpts dashesCmd)) (S "---all") = none := by rw [hits, ha]; rfl
  have e3 : wrapHit holds (wrapBranches (wrapOpts dashesCmd)) (S "--all") = some false := by rw [hits, hb2]; rfl
  refine ⟨by decide, _, rfl, fun n => ?_, fun n => ?_⟩
  · simp only [wrapRun, delete_none e1, delete_none e2]
    rfl
  · simp only [wrapRun, delete_none e1, delete_one e3]
    rfl

end CC
