import Verif.Lemmas.ValidatorTree
/-!
# Properties C33, C34 and C35: what the schema validator accepts
-/

namespace CC

/-! ## From paths to definitions -/

theorem haveDefs_path {vs : List Val} {qs : List (List Str × List (Key × Val))} (h : HaveDefs vs qs)
    {v : Val} {path : List Str} (hv : v ∈ vs) (hp : Doc.HasPath v path) : ∃ d, v = .dict d ∧ (path, d) ∈ qs := by
  obtain ⟨d, s, rfl, hk, _, rfl⟩ := hp
  obtain ⟨p, hm⟩ := haveDefs_mem h hv
  obtain ⟨s', hs', rfl, _⟩ := haveDefs_prog h hm
  rw [hk] at hs'
  simp only [Option.some.injEq, Val.str.injEq] at hs'
  exact ⟨d, rfl, by rw [hs']; exact hm⟩

theorem haveDefs_hasPath {vs : List Val} {qs : List (List Str × List (Key × Val))} (h : HaveDefs vs qs)
    {p : List Str} {d : List (Key × Val)} (hm : (p, d) ∈ qs) : .dict d ∈ vs ∧ Doc.HasPath (.dict d) p := by
  induction h with
  | nil => simp at hm
  | cons d' s vs ps hk hv _ ih =>
    rcases List.mem_cons.1 hm with hm | hm
    · simp only [Prod.mk.injEq] at hm
      obtain ⟨rfl, rfl⟩ := hm
      exact ⟨by simp, d, s, rfl, hk, hv, rfl⟩
    · exact ⟨by simp [(ih hm).1], (ih hm).2⟩

theorem hasSubcommand_iff {vs : List Val} {qs : List (List Str × List (Key × Val))} (h : HaveDefs vs qs)
    (path : List Str) : Doc.HasSubcommand vs path ↔ ∃ sub, path ++ [sub] ∈ qs.map (·.1) := by
  constructor
  · rintro ⟨w, hw, sub, hp⟩
    obtain ⟨d, rfl, hm⟩ := haveDefs_path h hw hp
    exact ⟨sub, List.mem_map.2 ⟨_, hm, rfl⟩⟩
  · rintro ⟨sub, hm⟩
    obtain ⟨⟨p, d⟩, hm, rfl⟩ := List.mem_map.1 hm
    obtain ⟨h1, h2⟩ := haveDefs_hasPath h hm
    exact ⟨_, h1, sub, h2⟩

/-! ## C33: repeatable positionals -/

/-- C33: what the validator accepts for the program and its direct subcommands: no positional is behind a
repeatable one, all repeatable positionals have the same number, and a command with subcommands has none.
Missing: commands below the direct subcommands, see `C33_false`. -/
theorem C33_accepted_partial (env : ValEnv) (defs : List Val) (h : validate env defs = .ok ())
    (v : Val) (hv : v ∈ defs) (path : List Str) (hp : Doc.HasPath v path) (hl : path.length ≤ 2)
    (ps : List Val) (hps : Doc.PositionalsOf v ps) :
    Doc.RepeatableLast ps ∧
    (∀ p ∈ ps, ∀ q ∈ ps, ∀ n m, Doc.Repeats p → Doc.Repeats q → Doc.NumberOf p n → Doc.NumberOf q m → n = m) ∧
    (Doc.HasSubcommand defs path → ∀ p ∈ ps, ¬ Doc.Repeats p) := by
  obtain ⟨qs, hd, _, _, hall⟩ := (validate_iff env defs).1 h
  obtain ⟨d, rfl, hm⟩ := haveDefs_path hd hv hp
  obtain ⟨d', hdd, hk⟩ := hps
  cases hdd
  obtain ⟨h1, h2⟩ := (hall path d hm hl).2 ps hk
  refine ⟨h1, fun p hp q hq n m rp rq np nq => ?_, ?_⟩
  · have a := h1 p hp q hq n m rp np nq
    have b := h1 q hq p hp m n rq nq np
    omega
  · rw [hasSubcommand_iff hd]
    exact h2

/-- Every positional that was accepted has a number, so that the statements about numbers are not empty. -/
theorem C33_numbers (env : ValEnv) (defs : List Val) (h : validate env defs = .ok ())
    (v : Val) (hv : v ∈ defs) (path : List Str) (hp : Doc.HasPath v path) (hl : path.length ≤ 2)
    (ps : List Val) (hps : Doc.PositionalsOf v ps) (p : Val) (hpp : p ∈ ps) : ∃ n, Doc.NumberOf p n ∧ 1 ≤ n := by
  obtain ⟨qs, hd, _, _, hall⟩ := (validate_iff env defs).1 h
  obtain ⟨d, rfl, hm⟩ := haveDefs_path hd hv hp
  obtain ⟨d', hdd, hk⟩ := hps
  cases hdd
  obtain ⟨q, rfl, hq⟩ := (definition_sound env d (hall path d hm hl).1).positionals ps hk p hpp
  obtain ⟨v, i, hv, hi, h1⟩ := hq.number
  exact ⟨i, ⟨q, v, rfl, hv, hi⟩, h1⟩

/-! ## C34: lists of definitions -/

/-- C34: if a list of definitions is accepted, then every command follows its parent, none is defined twice,
there is one program, and the definitions of the program and its direct subcommands have the documented form.
Missing: the definitions below the direct subcommands are not looked at, see `C34_false`. -/
theorem C34_accepted_partial (env : ValEnv) (defs : List Val) (h : validate env defs = .ok ()) :
    ∃ paths, Doc.HavePaths defs paths ∧ Doc.InOrder paths ∧ Doc.OneProgram paths ∧
      ∀ d, .dict d ∈ defs → ∀ path, Doc.HasPath (.dict d) path → path.length ≤ 2 →
        Doc.Definition env (fun _ => True) d := by
  obtain ⟨qs, hd, ho, hone, hall⟩ := (validate_iff env defs).1 h
  refine ⟨_, haveDefs_paths hd, ?_, hone, fun d hm path hp hl => ?_⟩
  · have := (orderedAfter_iff [] _).1 ho
    simpa [Doc.InOrder] using this
  · obtain ⟨d', hdd, hm⟩ := haveDefs_path hd hm hp
    cases hdd
    exact definition_sound env d (hall path d hm hl).1

/-- C34, the other direction: documented definitions, in order and with one program, are accepted, if they use
neither `none` nor `command_arg`, and repeatable positionals are the last ones of commands without
subcommands. -/
theorem C34_accepts_partial (env : ValEnv) (defs : List Val) (paths : List (List Str))
    (hpaths : Doc.HavePaths defs paths) (ho : Doc.InOrder paths) (hone : Doc.OneProgram paths)
    (hdefs : ∀ d, .dict d ∈ defs → Doc.Definition env (fun c => c ≠ S "none" ∧ c ≠ S "command_arg") d)
    (hrep : ∀ v ∈ defs, ∀ path ps, Doc.HasPath v path → Doc.PositionalsOf v ps →
      Doc.RepeatableLast ps ∧ (Doc.HasSubcommand defs path → ∀ p ∈ ps, ¬ Doc.Repeats p)) :
    validate env defs = .ok () := by
  obtain ⟨qs, hd, rfl⟩ := havePaths_defs hpaths
  refine (validate_iff env defs).2 ⟨qs, hd, (orderedAfter_iff [] _).2 (by simpa [Doc.InOrder] using ho), hone,
    fun p d hm _ => ⟨definition_complete env d (hdefs d (haveDefs_hasPath hd hm).1), fun ps hps => ?_⟩⟩
  obtain ⟨h1, h2⟩ := haveDefs_hasPath hd hm
  have := hrep _ h1 p ps h2 ⟨d, rfl, hps⟩
  rw [hasSubcommand_iff hd] at this
  exact this

/-- The error of a computation. -/
def errorOf {α} : Except Err α → Option Err
  | .ok _ => none
  | .error e => some e

theorem errorOf_eq {α} {r : Except Err α} {e : Err} (h : errorOf r = some e) : r = .error e := by
  cases r with
  | ok a => simp [errorOf] at h
  | error e' => simp [errorOf] at h; rw [h]

theorem errorOf_none {α} {r : Except Err α} (h : errorOf r = none) : ∃ a, r = .ok a := by
  cases r with
  | ok a => exact ⟨a, rfl⟩
  | error e' => simp [errorOf] at h

/-- A dictionary from names. -/
def dictOf (l : List (String × Val)) : Val := .dict (l.map (fun e => (.str (S e.1), e.2)))

/-- A list of definitions with a subcommand, an option and two positionals. -/
def sampleDefs : List Val := [
  dictOf [("prog", .str (S "tool")), ("options", .list [dictOf [
    ("option_strings", .list [.str (S "-f"), .str (S "--file")]), ("metavar", .str (S "FILE")),
    ("complete", .list [.str (S "file"), dictOf [("fuzzy", .bool true)]])]])],
  dictOf [("prog", .str (S "tool copy")), ("positionals", .list [
    dictOf [("number", .int 1), ("complete", .list [.str (S "command")])],
    dictOf [("number", .int 2), ("repeatable", .bool true), ("complete", .list [.str (S "command_arg")])]])]]

/-- The validator for the examples: everything is a regular expression and a pattern. -/
def sampleEnv : ValEnv := { isRegex := fun _ => true, globOk := fun _ => true, floatGt := fun _ _ => false }

/-- The hypotheses of the theorems above can be met. -/
example : validate sampleEnv sampleDefs = .ok () := (errorOf_none (by decide +kernel)).choose_spec

/-- C34 (and C33, C35) as stated are false: below the direct subcommands definitions are not checked. The third
definition has an unknown attribute, and positionals behind a repeatable one. -/
theorem C34_false : ∃ defs, validate sampleEnv defs = .ok () ∧
    ∃ d, .dict d ∈ defs ∧ Doc.HasPath (.dict d) [S "a", S "b", S "c"] ∧ ¬ Doc.Definition sampleEnv (fun _ => True) d := by
  refine ⟨[dictOf [("prog", .str (S "a"))], dictOf [("prog", .str (S "a b"))],
    dictOf [("prog", .str (S "a b c")), ("unknown", .int 1)]], rfl,
    [(.str (S "prog"), .str (S "a b c")), (.str (S "unknown"), .int 1)], by simp [dictOf],
    ⟨_, S "a b c", rfl, rfl, rfl, rfl⟩, fun h => ?_⟩
  obtain ⟨row, hrow, hk, _⟩ := h.entries (.str (S "unknown"), .int 1) (by simp)
  simp only [Key.str.injEq] at hk
  revert hrow
  simp only [Doc.definitionTable, List.mem_cons, List.not_mem_nil, or_false]
  rintro (rfl | rfl | rfl | rfl | rfl | rfl | rfl | rfl | rfl) <;> exact absurd hk (by decide)

/-- C33 as stated is false for commands below the direct subcommands. -/
theorem C33_false : ∃ defs, validate sampleEnv defs = .ok () ∧
    ∃ v ∈ defs, ∃ path ps, Doc.HasPath v path ∧ Doc.PositionalsOf v ps ∧ ¬ Doc.RepeatableLast ps := by
  let p1 := dictOf [("number", .int 1), ("repeatable", .bool true)]
  let p2 := dictOf [("number", .int 2)]
  refine ⟨[dictOf [("prog", .str (S "a"))], dictOf [("prog", .str (S "a b"))],
    dictOf [("prog", .str (S "a b c")), ("positionals", .list [p1, p2])]], rfl,
    dictOf [("prog", .str (S "a b c")), ("positionals", .list [p1, p2])], by simp,
    [S "a", S "b", S "c"], [p1, p2], ⟨_, S "a b c", rfl, rfl, rfl, rfl⟩, ⟨_, rfl, by simp [getKey]; decide⟩, fun h => ?_⟩
  have := h p1 (by simp) p2 (by simp) 1 2 ⟨_, rfl, rfl⟩ ⟨_, _, rfl, rfl, .int 1⟩ ⟨_, _, rfl, rfl, .int 2⟩
  omega

/-! ## C35: completers -/

/-- C35: a completer that is accepted has the documented form, with all the completers inside it. -/
theorem C35_sound (env : ValEnv) (ctx : ValCtx) (args : List Val) (t : List Str)
    (h : checkComplete env ctx [] args = .ok t) :
    Doc.Completer env (fun c => c = S "command_arg" → Doc.AfterCommand ctx) (.list args) :=
  complete_sound env ctx [] args t h

/-- C35: exactly the documented completers are accepted, apart from those that use `none` or `command_arg`,
whose place is restricted. -/
theorem C35_exact_partial (env : ValEnv) (ctx : ValCtx) (args : List Val) :
    (Doc.Completer env (fun c => c ≠ S "none" ∧ c ≠ S "command_arg") (.list args) →
      ∃ t, checkComplete env ctx [] args = .ok t) ∧
    ((∃ t, checkComplete env ctx [] args = .ok t) → Doc.Completer env (fun _ => True) (.list args)) := by
  constructor
  · intro h
    obtain ⟨args', he, ha⟩ := complete_accepts env ctx _ (fun c hc => hc) _ h
    cases he
    exact ha []
  · rintro ⟨t, ht⟩
    exact Completer.mono (fun _ _ => trivial) (complete_sound env ctx [] args t ht)

/-- C35 for whole definitions: in an accepted list, every completer of an option or positional of the program
or a direct subcommand has the documented form; `command_arg` is never used in an option, and in a positional
only directly behind a command. -/
theorem C35_definitions (env : ValEnv) (defs : List Val) (h : validate env defs = .ok ())
    (d : List (Key × Val)) (hd : .dict d ∈ defs) (path : List Str) (hp : Doc.HasPath (.dict d) path)
    (hl : path.length ≤ 2) :
    (∀ l o v, getKey d (S "options") = some (.list l) → .dict o ∈ l → getKey o (S "complete") = some v →
      v ≠ .none → Doc.Completer env (fun c => c ≠ S "command_arg") v) ∧
    (∀ l p v, getKey d (S "positionals") = some (.list l) → .dict p ∈ l → getKey p (S "complete") = some v →
      v ≠ .none → Doc.Completer env (fun c => c = S "command_arg" → Doc.AfterCommand ⟨d, some p⟩) v) := by
  obtain ⟨_, _, _, _, hall⟩ := C34_accepted_partial env defs h
  have hdef := hall d hd path hp hl
  constructor
  · intro l o v hl ho hk hn
    obtain ⟨o', he, hod⟩ := hdef.options l hl _ ho
    cases he
    exact Completer.mono (fun _ h => h.2) (hod.common.complete v hk hn)
  · intro l p v hl ho hk hn
    obtain ⟨p', he, hpd⟩ := hdef.positionals l hl _ ho
    cases he
    exact Completer.mono (fun _ h => h.2) (hpd.common.complete v hk hn)

/-- C35: ranges. A range is accepted exactly if its numbers are integers, the step is not zero and the numbers
are ordered with the sign of the step. -/
theorem C35_range (env : ValEnv) (ctx : ValCtx) (start stop step : Val) :
    (∃ t, checkComplete env ctx [] [.str (S "range"), start, stop, step] = .ok t) ↔
      ∃ a b s, Doc.Integer start a ∧ Doc.Integer stop b ∧ Doc.Integer step s ∧ s ≠ 0 ∧
        (0 < s → a ≤ b) ∧ (s < 0 → b ≤ a) := by
  constructor
  · intro h
    have h := (C35_exact_partial env ctx _).2 h
    cases h with
    | simple _ _ _ h =>
      cases h with
      | rangeStep _ _ _ a b s h1 h2 h3 h4 h5 h6 => exact ⟨a, b, s, h1, h2, h3, h4, h5, h6⟩
      | filedir c f l _ d hc ho _ _ _ =>
        rcases ho with ⟨h, _⟩ | h <;> cases h
      | number c f _ d hc ho _ _ _ => rcases ho with ⟨h, _⟩ | h <;> cases h
  · rintro ⟨a, b, s, h1, h2, h3, h4, h5, h6⟩
    exact (C35_exact_partial env ctx _).1 (.simple _ _ (by decide) (.rangeStep _ _ _ a b s h1 h2 h3 h4 h5 h6))

/-- The names of completers. -/
def completerNames : List Str := Doc.withoutArguments ++ [
  S "choices", S "command", S "directory", S "directory_list", S "file", S "file_list", S "mime_file", S "history",
  S "range", S "exec", S "exec_fast", S "exec_internal", S "key_value_list_exec", S "key_value_pair_exec",
  S "value_list", S "date", S "ip_address", S "integer", S "float", S "combine", S "list", S "prefix",
  S "key_value_list", S "key_value_pair"]

/-- C35: the name of an accepted completer is one of those in the list. -/
theorem C35_known (env : ValEnv) (ctx : ValCtx) (args : List Val) (t : List Str)
    (h : checkComplete env ctx [] args = .ok t) : ∃ c rest, args = .str c :: rest ∧ c ∈ completerNames := by
  have h := C35_sound env ctx args t h
  cases h with
  | simple c rest _ hs =>
    refine ⟨c, rest, rfl, ?_⟩
    cases hs with
    | void c hc => exact List.mem_append_left _ hc
    | filedir c f l _ d hc _ _ _ _ =>
      simp only [List.mem_cons, Prod.mk.injEq, List.not_mem_nil, or_false] at hc
      rcases hc with ⟨rfl, _⟩ | ⟨rfl, _⟩ | ⟨rfl, _⟩ | ⟨rfl, _⟩ <;> decide
    | regex c s hc _ => rcases hc with rfl | rfl <;> decide
    | exec c s hc => rcases hc with rfl | rfl | rfl <;> decide
    | number c n _ d hc _ _ _ _ => rcases hc with ⟨rfl, _⟩ | ⟨rfl, _⟩ <;> decide
    | _ => decide
  | combine => exact ⟨_, _, rfl, by decide⟩
  | list => exact ⟨_, _, rfl, by decide⟩
  | listOptions => exact ⟨_, _, rfl, by decide⟩
  | «prefix» => exact ⟨_, _, rfl, by decide⟩
  | keyValueList => exact ⟨_, _, rfl, by decide⟩
  | keyValuePair => exact ⟨_, _, rfl, by decide⟩

/-- A nested completer that meets the hypotheses. -/
example : ∃ t, checkComplete sampleEnv ⟨[], none⟩ [] [.str (S "key_value_list"), .str (S ","), .str (S "="), .list [
    .list [.str (S "size"), .none, .list [.str (S "range"), .int 10, .int 1, .int (-1)], .list [.str (S "all")]],
    .list [.str (S "all"), .str (S "everything"), .none]]] = .ok t := errorOf_none (by decide +kernel)

/-- `none` is rejected in a value although it is allowed there: the validator still has the `prefix` of the
value before in mind. -/
theorem C35_none_after_prefix :
    (∃ t, checkComplete sampleEnv ⟨[], none⟩ [] [.str (S "key_value_pair"), .str (S "="), .list [
      .list [.str (S "a"), .none, .list [.str (S "none")]],
      .list [.str (S "b"), .none, .list [.str (S "prefix"), .str (S "x"), .list [.str (S "user")]]]]] = .ok t) ∧
    checkComplete sampleEnv ⟨[], none⟩ [] [.str (S "key_value_pair"), .str (S "="), .list [
      .list [.str (S "b"), .none, .list [.str (S "prefix"), .str (S "x"), .list [.str (S "user")]]],
      .list [.str (S "a"), .none, .list [.str (S "none")]]]] = .error .schemaError :=
  ⟨errorOf_none (by decide +kernel), errorOf_eq (by decide +kernel)⟩

/-- `command_arg` is rejected in `combine`, but accepted there behind a `prefix`. -/
theorem C35_command_arg_in_combine : ∃ ctx : ValCtx,
    checkComplete sampleEnv ctx [] [.str (S "combine"), .list [.list [.str (S "user")], .list [.str (S "command_arg")]]] =
      .error .schemaError ∧
    ∃ t, checkComplete sampleEnv ctx [] [.str (S "combine"), .list [
      .list [.str (S "prefix"), .str (S "x"), .list [.str (S "user")]], .list [.str (S "command_arg")]]] = .ok t :=
  ⟨⟨[(.str (S "positionals"), .list [
      dictOf [("number", .int 1), ("complete", .list [.str (S "command")])],
      dictOf [("number", .int 2), ("repeatable", .bool true)]])],
    some [(.str (S "number"), .int 2), (.str (S "repeatable"), .bool true)]⟩, errorOf_eq (by decide +kernel), errorOf_none (by decide +kernel)⟩

end CC
