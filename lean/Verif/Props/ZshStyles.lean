import Verif.Lemmas.ZshStyles
/-!
# C101: what is marked as not to be sorted stays unsorted in Zsh, and nothing else

`nosort` of an option or a positional becomes a `zstyle` command at the end of the Zsh script.
-/

namespace CC

open ZshStyles

private theorem o_head (x : Str) : (S "option" ++ x).head? = some 'o' := by simp [S]
private theorem a_head (x : Str) : (S "argument-" ++ x).head? = some 'a' := by simp [S]

private theorem o_not_a {x y : Str} (h : S "option" ++ x = S "argument-" ++ y) : False := by
  have := congrArg List.head? h
  rw [o_head, a_head] at this
  exact absurd this (by decide)

/-- In which contexts the script switches the sorting off for the argument of an option: exactly for the options that are
marked, and for those whose name is a marked one followed by a dash and more. -/
theorem C101_options_partial {root : Cmd} (hw : Writable root) : ∃ ss, settings (zstyleText root) = some ss ∧
    ∀ (c : Context) (name : Str) (n : Nat), c.Proper → c.place = .option name n →
      (Unsorted ss c ↔ c.command = root.data.prog ∧
        ∃ o, HasOption root o ∧ o.nosort = true ∧ ∃ s ∈ o.strings, s = name ∨ (s ++ ['-']) <+: name) := by
  obtain ⟨ss, h1, -⟩ := settings_text hw
  refine ⟨ss, h1, fun c name n hc hp => ?_⟩
  rw [unsorted_iff hw h1 hc, hp]
  have hne : ∀ p : Pos, (Place.option name n).text ≠ S "argument-" ++ natStr p.number := by
    intro p h
    exact o_not_a (x := name ++ '-' :: natStr n) (y := natStr p.number) (by rw [← List.append_assoc]; exact h)
  have hpre : ∀ s : Str, (S "option" ++ s ++ ['-']) <+: (Place.option name n).text ↔ s = name ∨ (s ++ ['-']) <+: name := by
    intro s
    rw [← dash_prefix s name n]
    show (S "option" ++ s ++ ['-']) <+: (S "option" ++ name ++ _) ↔ _
    rw [List.append_assoc, List.append_assoc, List.prefix_append_right_inj]
  simp only [hpre, hne, and_false, exists_false, or_false]

/-- In which contexts the script switches the sorting off for an operand: exactly if some command has a positional with
that number which is marked. -/
theorem C101_operands_partial {root : Cmd} (hw : Writable root) : ∃ ss, settings (zstyleText root) = some ss ∧
    ∀ (c : Context) (n : Nat), c.Proper → c.place = .operand n →
      (Unsorted ss c ↔ c.command = root.data.prog ∧ ∃ p, HasPositional root p ∧ p.nosort = true ∧ p.number = n) := by
  obtain ⟨ss, h1, -⟩ := settings_text hw
  refine ⟨ss, h1, fun c n hc hp => ?_⟩
  rw [unsorted_iff hw h1 hc, hp]
  have hne : ∀ s : Str, ¬ (S "option" ++ s ++ ['-']) <+: (Place.operand n).text := by
    rintro s ⟨u, h⟩
    rw [List.append_assoc, List.append_assoc] at h
    exact o_not_a (y := natStr n) h
  have heq : ∀ p : Pos, (Place.operand n).text = S "argument-" ++ natStr p.number ↔ p.number = n := by
    intro p
    show S "argument-" ++ natStr n = _ ↔ _
    rw [List.append_cancel_left_eq]
    exact ⟨fun h => (natStr_inj h).symm, fun h => by rw [h]⟩
  simp only [hne, heq, and_false, exists_false, false_or]

/-- The argument of an option is left unsorted exactly if the option is marked, if no marked option of the command line has
one of its names, or one of its names up to a dash. -/
theorem C101_option_partial {root : Cmd} (hw : Writable root)
    (apart : ∀ o o', HasOption root o → HasOption root o' → ∀ s ∈ o.strings, ∀ t ∈ o'.strings, t = s ∨ (t ++ ['-']) <+: s →
      o'.nosort = true → o.nosort = true) :
    ∃ ss, settings (zstyleText root) = some ss ∧ ∀ (o : Opt) (s function completer tag : Str), HasOption root o → s ∈ o.strings →
      (Context.mk function completer root.data.prog (.option s 1) tag).Proper →
      (Unsorted ss ⟨function, completer, root.data.prog, .option s 1, tag⟩ ↔ o.nosort = true) := by
  obtain ⟨ss, h1, h2⟩ := C101_options_partial hw
  refine ⟨ss, h1, fun o s f co tag ho hs hc => ?_⟩
  rw [h2 _ s 1 hc rfl]
  constructor
  · rintro ⟨-, o', ho', hn, t, ht, h⟩
    exact apart o o' ho ho' s hs t ht h hn
  · intro hn
    exact ⟨rfl, o, ho, hn, s, hs, Or.inl rfl⟩

/-- An operand of the program itself that is not repeatable is left unsorted exactly if it is marked, if no marked
positional of the command line has the same number. -/
theorem C101_operand_partial {root : Cmd} (hw : Writable root) :
    ∃ ss, settings (zstyleText root) = some ss ∧ ∀ (p : Pos) (function completer tag : Str), p ∈ root.data.positionals →
      p.repeatable = false → 1 ≤ p.number → (∀ q, HasPositional root q → q.number = p.number → q.nosort = true → p.nosort = true) →
      (Context.mk function completer root.data.prog (placeOf [] p) tag).Proper →
      (Unsorted ss ⟨function, completer, root.data.prog, placeOf [] p, tag⟩ ↔ p.nosort = true) := by
  obtain ⟨ss, h1, h2⟩ := C101_operands_partial hw
  refine ⟨ss, h1, fun p f co tag hp hr hn hag hc => ?_⟩
  have hpl : placeOf [] p = .operand p.number := by
    unfold placeOf
    rw [hr]
    show Place.operand (positionalNum [] p.number) = _
    congr 1
    simp [positionalNum, positionalIndex]
    omega
  rw [h2 _ p.number hc hpl]
  constructor
  · rintro ⟨-, q, hq, hqn, he⟩
    exact hag q hq he hqn
  · intro h
    exact ⟨rfl, p, ⟨[], root, .root, hp⟩, h, rfl⟩

/-- Nothing is left unsorted for a positional that may be repeated, marked or not. -/
theorem C101_repeatable {root : Cmd} (hw : Writable root) : ∃ ss, settings (zstyleText root) = some ss ∧
    ∀ (c : Context) (parents : List Cmd) (p : Pos), c.Proper → p.repeatable = true → c.place = placeOf parents p → ¬ Unsorted ss c := by
  obtain ⟨ss, h1, -⟩ := settings_text hw
  refine ⟨ss, h1, fun c ps p hc hr hp hu => ?_⟩
  have hpl : c.place = .rest := by rw [hp]; unfold placeOf; rw [hr]; rfl
  obtain ⟨-, h | h⟩ := (unsorted_iff hw h1 hc).mp hu
  · obtain ⟨o, -, -, s, -, u, hu⟩ := h
    rw [hpl, show Place.rest.text = S "argument-" ++ S "rest" by decide +kernel, List.append_assoc, List.append_assoc] at hu
    exact o_not_a hu
  · obtain ⟨q, -, -, he⟩ := h
    rw [hpl] at he
    have he : S "argument-" ++ S "rest" = S "argument-" ++ natStr q.number := by rw [← he]; decide +kernel
    have he := List.append_cancel_left he
    have hm : 'r' ∈ natStr q.number := by rw [← he]; decide +kernel
    exact absurd (Nat.isDigit_of_mem_toDigits (by decide) (by decide) hm) (by decide)

/-- Nothing is left unsorted if the program is called by another name, for instance an alias. -/
theorem C101_alias {root : Cmd} (hw : Writable root) : ∃ ss, settings (zstyleText root) = some ss ∧
    ∀ (c : Context), c.Proper → c.command ≠ root.data.prog → ¬ Unsorted ss c := by
  obtain ⟨ss, h1, -⟩ := settings_text hw
  exact ⟨ss, h1, fun c hc hn hu => hn ((unsorted_iff hw h1 hc).mp hu).1⟩

/-! ## A program -/

private def list_ : Pos := { number := 1, metavar := some (S "NAME"), nosort := true }
private def top : Pos := { number := 1, metavar := some (S "HOST") }
private def sortOpt : Opt := { strings := [S "-s", S "--sort"], complete := some [.str (S "choices")], nosort := true }
private def sortBy : Opt := { strings := [S "--sort-by"], complete := some [.str (S "choices")] }
private def color : Opt := { strings := [S "--color"], complete := some [.str (S "choices")] }

/-- A program with a marked option and another one, and a marked positional. -/
private def plain : Cmd := .node { prog := S "tool", aliases := [S "t"], options := [sortOpt, color], positionals := [list_] } none []

private theorem at_alone {d : CmdData} {n : Option Nat} {parents : List Cmd} {c : Cmd} (h : At (.node d n []) parents c) :
    parents = [] ∧ c = .node d n [] := by
  cases h with
  | root => exact ⟨rfl, rfl⟩
  | child h hd =>
    exfalso
    have key : ∀ {ps e}, At (.node d n []) ps e → e = .node d n [] := by
      intro ps e he
      induction he with
      | root => rfl
      | child _ hm ih => rw [ih] at hm; cases hm
    rw [key h] at hd
    cases hd

private theorem chars_ok {t : Str} (h : t.all (fun c => !ZshStyles.special.contains c) = true) : ∀ c ∈ t, c ∉ ZshStyles.special := by
  intro c hc hm
  have := List.all_eq_true.mp h c hc
  simp [hm] at this

theorem C101_example : Writable plain ∧
    (∀ o o', HasOption plain o → HasOption plain o' → ∀ s ∈ o.strings, ∀ t ∈ o'.strings, t = s ∨ (t ++ ['-']) <+: s →
      o'.nosort = true → o.nosort = true) ∧
    zstyleText plain = S "zstyle ':completion:*:*:tool:option-s-*' sort false\nzstyle ':completion:*:*:tool:option--sort-*' sort false\nzstyle ':completion:*:*:tool:argument-1:*' sort false" ∧
    (Context.mk [] (S "complete") (S "tool") (.option (S "--sort") 1) (S "values")).Proper := by
  refine ⟨⟨chars_ok (by decide +kernel), ⟨by decide +kernel, by decide +kernel⟩, ?_⟩, ?_, by decide +kernel, ?_⟩
  · intro ps c hat o ho hn s hs
    obtain ⟨-, rfl⟩ := at_alone hat
    have ho : o = sortOpt ∨ o = color := by simpa [plain, Cmd.data] using ho
    rcases ho with rfl | rfl
    · have hs : s = S "-s" ∨ s = S "--sort" := by simpa [sortOpt] using hs
      rcases hs with rfl | rfl <;> exact chars_ok (by decide +kernel)
    · cases hn
  · rintro o o' ⟨ps, c, hat, ho⟩ ⟨ps', c', hat', ho'⟩ s hs t ht h hn
    obtain ⟨-, rfl⟩ := at_alone hat
    obtain ⟨-, rfl⟩ := at_alone hat'
    have ho : o = sortOpt ∨ o = color := by simpa [plain, Cmd.data] using ho
    have ho' : o' = sortOpt ∨ o' = color := by simpa [plain, Cmd.data] using ho'
    rcases ho' with rfl | rfl
    · rcases ho with rfl | rfl
      · rfl
      · exfalso
        have hs : s = S "--color" := by simpa [color] using hs
        have ht : t = S "-s" ∨ t = S "--sort" := by simpa [sortOpt] using ht
        subst hs
        rcases ht with rfl | rfl <;> revert h <;> decide +kernel
    · cases hn
  · constructor <;> decide +kernel

/-! ## Where it is wrong -/

/-- An option is marked, and another one has its name followed by a dash and more: both stay unsorted. -/
theorem C101_longer : ∃ root : Cmd, Writable root ∧ sortBy ∈ root.data.options ∧ sortBy.nosort = false ∧ ∃ ss, settings (zstyleText root) = some ss ∧
    Unsorted ss ⟨[], S "complete", root.data.prog, .option (S "--sort-by") 1, S "values"⟩ := by
  have hw : Writable (.node { prog := S "tool", options := [sortOpt, sortBy] } none []) := by
    refine ⟨chars_ok (by decide +kernel), ⟨by decide +kernel, by decide +kernel⟩, ?_⟩
    intro ps c hat o ho hn s hs
    obtain ⟨-, rfl⟩ := at_alone hat
    have ho : o = sortOpt ∨ o = sortBy := by simpa [Cmd.data] using ho
    rcases ho with rfl | rfl
    · have hs : s = S "-s" ∨ s = S "--sort" := by simpa [sortOpt] using hs
      rcases hs with rfl | rfl <;> exact chars_ok (by decide +kernel)
    · cases hn
  obtain ⟨ss, h1, h2⟩ := C101_options_partial hw
  refine ⟨_, hw, by simp [Cmd.data], rfl, ss, h1, (h2 _ (S "--sort-by") 1 (by constructor <;> decide +kernel) rfl).mpr ⟨rfl, sortOpt, ?_, rfl, S "--sort", ?_, ?_⟩⟩
  · exact ⟨[], _, .root, by simp [Cmd.data]⟩
  · simp [sortOpt]
  · right; decide +kernel

/-- The program has an operand, and a subcommand with a marked one. The operand of the subcommand is sorted, that of the
program is not: the number in the pattern is the one in the subcommand. -/
theorem C101_subcommand : ∃ root sub : Cmd, Writable root ∧ At root [root] sub ∧ top ∈ root.data.positionals ∧ list_ ∈ sub.data.positionals ∧
    top.nosort = false ∧ list_.nosort = true ∧ ∃ ss, settings (zstyleText root) = some ss ∧
    Unsorted ss ⟨[], S "complete", root.data.prog, placeOf [] top, S "values"⟩ ∧
    ¬ Unsorted ss ⟨[], S "complete", root.data.prog, placeOf [root] list_, S "values"⟩ := by
  let sub : Cmd := .node { prog := S "show", positionals := [list_] } none []
  let root : Cmd := .node { prog := S "tool", positionals := [top] } (some 2) [sub]
  have hall : ∀ {ps c}, At root ps c → c = root ∨ c = sub := by
    intro ps c h
    induction h with
    | root => exact Or.inl rfl
    | child _ hm ih =>
      rcases ih with rfl | rfl
      · right; simpa [root, Cmd.children] using hm
      · cases hm
  have hw : Writable root := by
    refine ⟨chars_ok (by decide +kernel), ⟨by decide +kernel, by decide +kernel⟩, ?_⟩
    intro ps c hat o ho
    rcases hall hat with rfl | rfl <;> cases ho
  have hsub : At root [root] sub := .child (parents := []) .root (by simp [root, Cmd.children])
  obtain ⟨ss, h1, h2⟩ := C101_operands_partial hw
  refine ⟨root, sub, hw, hsub, by simp [root, Cmd.data], by simp [sub, Cmd.data], rfl, rfl, ss, h1, ?_, ?_⟩
  · exact (h2 _ 1 (by constructor <;> decide +kernel) rfl).mpr ⟨rfl, list_, ⟨[root], sub, hsub, by simp [sub, Cmd.data]⟩, rfl, rfl⟩
  · intro h
    obtain ⟨-, p, ⟨ps, c, hat, hp⟩, -, hn⟩ := (h2 _ 3 (by constructor <;> decide +kernel) rfl).mp h
    rcases hall hat with rfl | rfl
    · have : p = top := by simpa [root, Cmd.data] using hp
      subst this; exact absurd hn (by decide)
    · have : p = list_ := by simpa [sub, Cmd.data] using hp
      subst this; exact absurd hn (by decide)

/-- An option `-?` is marked: the arguments of all options of one letter stay unsorted. -/
theorem C101_question : ∃ (root : Cmd) (ss : List Setting), root.data.options = [{ strings := [S "-?"], complete := some [.str (S "none")], nosort := true }] ∧
    settings (zstyleText root) = some ss ∧ ∀ x : Char, Unsorted ss ⟨[], S "complete", root.data.prog, .option ['-', x] 1, S "values"⟩ := by
  refine ⟨.node { prog := S "tool", options := [{ strings := [S "-?"], complete := some [.str (S "none")], nosort := true }] } none [],
    [⟨S ":completion:*:*:tool:option-?-*", S "sort", [S "false"]⟩], rfl, by kernel_rfl, fun x => ⟨⟨_, List.mem_singleton.mpr rfl, rfl, ?_⟩, ?_⟩⟩
  · have r0 : Readable zshGlob (S ":completion:") := readable_lits (lits_of (by decide +kernel))
    have r1 : Readable zshGlob (S ":") := readable_lits (lits_of (by decide +kernel))
    have r2 : Readable zshGlob (S ":tool:option-") := readable_lits (lits_of (by decide +kernel))
    have r3 : Readable zshGlob (S "-") := readable_lits (lits_of (by decide +kernel))
    have q : Readable zshGlob (S "?") := ⟨_, reads_wild '?' (Or.inr rfl)⟩
    have s1 := readable_append r3 star_readable
    have s2 := readable_append q s1
    have s3 := readable_append r2 s2
    have s4 := readable_append star_readable s3
    have s5 := readable_append r1 s4
    have s6 := readable_append star_readable s5
    have s7 := readable_append r0 s6
    refine (applies (p := S ":completion:*:*:tool:option-?-*") s7 (by simp [S]) _).mpr ?_
    refine (matches_append r0 s6 _).mpr ⟨S ":completion:", S ":complete:tool:option-" ++ (x :: S "-1:values"), ?_, (matches_lits (lits_of (by decide +kernel)) _).mpr rfl, ?_⟩
    · kernel_rfl
    refine (matches_append star_readable s5 _).mpr ⟨[], _, rfl, star_any _, ?_⟩
    refine (matches_append r1 s4 _).mpr ⟨S ":", S "complete:tool:option-" ++ (x :: S "-1:values"), ?_, (matches_lits (lits_of (by decide +kernel)) _).mpr rfl, ?_⟩
    · kernel_rfl
    refine (matches_append star_readable s3 _).mpr ⟨S "complete", S ":tool:option-" ++ (x :: S "-1:values"), ?_, star_any _, ?_⟩
    · kernel_rfl
    refine (matches_append r2 s2 _).mpr ⟨S ":tool:option-", _, rfl, (matches_lits (lits_of (by decide +kernel)) _).mpr rfl, ?_⟩
    refine (matches_append q s1 _).mpr ⟨[x], S "-1:values", rfl, ?_, ?_⟩
    · exact (matches_of_reads (reads_wild '?' (Or.inr rfl)) _).mpr ⟨[x], [], rfl, ⟨x, rfl⟩, rfl⟩
    exact (matches_append r3 star_readable _).mpr ⟨S "-", S "1:values", rfl, (matches_lits (lits_of (by decide +kernel)) _).mpr rfl, star_any _⟩
  · intro s hs _
    simp only [List.mem_singleton] at hs
    subst hs
    rfl

end CC
