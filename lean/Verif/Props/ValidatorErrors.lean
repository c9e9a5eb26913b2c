import Verif.Lemmas.ValidatorClean
import Verif.Props.Validator
/-!
# C60: validation ends with acceptance or a schema error
-/

namespace CC

/-- C60, where it holds: if in every definition the name is a string (or missing or null), no option gives its
option strings as one string, and every positional is a dictionary that `command_arg` can look at (a completer
is a non-empty list and comes with a number), then validation succeeds or reports a schema error. Everything
else may have any type. -/
theorem C60_validate_partial (env : ValEnv) (defs : List Val) (h : ∀ d, .dict d ∈ defs → Doc.Tame d) :
    validate env defs = .ok () ∨ validate env defs = .error .schemaError := by
  have hc := clean_validate env defs h
  cases hv : validate env defs with
  | ok u => exact .inl rfl
  | error e => exact .inr (by rw [hc e hv])

/-- A condition attached to an option is parsed or rejected with the program's own error, whatever its text. -/
theorem C60_when (isRegex : Str → Bool) (s : Str) :
    (∃ r, parseWhen isRegex s = .ok r) ∨ parseWhen isRegex s = .error .crazyError := by
  cases h : parseWhen isRegex s with
  | ok r => exact .inl ⟨r, rfl⟩
  | error e => exact .inr (by rw [parseWhen_error _ _ _ h])

/-- A completer of an option, whatever it consists of, is accepted or rejected with a schema error. -/
theorem C60_completer (env : ValEnv) (d : List (Key × Val)) (trace : List Str) (c : List Val) :
    (∃ t, checkComplete env { definition := d } trace c = .ok t) ∨
    checkComplete env { definition := d } trace c = .error .schemaError := by
  have hc := clean_complete env { definition := d } (.inl rfl) trace c
  cases h : checkComplete env { definition := d } trace c with
  | ok t => exact .inl ⟨t, rfl⟩
  | error e => exact .inr (by rw [hc e h])

/-- The conditions can be met by documents that are valid and by documents that are not. -/
theorem C60_example : (∀ d, .dict d ∈ sampleDefs → Doc.Tame d) ∧
    (∀ d, .dict d ∈ [dictOf [("prog", .str (S "a")), ("help", .int 3), ("options", .list [.int 1])]] → Doc.Tame d) ∧
    validate sampleEnv [dictOf [("prog", .str (S "a")), ("help", .int 3), ("options", .list [.int 1])]] =
      .error .schemaError := by
  refine ⟨?_, ?_, errorOf_eq (by decide +kernel)⟩
  · intro d hd
    simp only [sampleDefs, List.mem_cons, List.not_mem_nil, or_false] at hd
    rcases hd with hd | hd <;> cases hd
    · refine ⟨?_, ?_, ?_⟩
      · intro v hv; cases hv; exact .inr ⟨_, rfl⟩
      · intro l hl v hv d c s he
        cases hl
        simp only [List.mem_cons, List.not_mem_nil, or_false] at hv
        subst hv
        cases he
        intro h; cases h
      · intro l hl; cases hl
    · refine ⟨?_, ?_, ?_⟩
      · intro v hv; cases hv; exact .inr ⟨_, rfl⟩
      · intro l hl; cases hl
      · intro l hl v hv
        cases hl
        simp only [List.mem_cons, List.not_mem_nil, or_false] at hv
        rcases hv with rfl | rfl
        · exact ⟨_, rfl, fun _ => ⟨⟨_, _, rfl⟩, _, rfl, .inl ⟨_, .int _⟩⟩⟩
        · exact ⟨_, rfl, fun _ => ⟨⟨_, _, rfl⟩, _, rfl, .inl ⟨_, .int _⟩⟩⟩
  · intro d hd
    simp only [List.mem_cons, List.not_mem_nil, or_false] at hd
    cases hd
    refine ⟨?_, ?_, ?_⟩
    · intro v hv; cases hv; exact .inr ⟨_, rfl⟩
    · intro l hl v hv d c s he
      cases hl
      simp only [List.mem_cons, List.not_mem_nil, or_false] at hv
      subst hv
      cases he
    · intro l hl; cases hl

/-! ## Where other exceptions leave the validator -/

/-- A number as name. -/
theorem C60_prog : validate sampleEnv [dictOf [("prog", .int 5)]] = .error .crash :=
  errorOf_eq (by decide +kernel)

/-- Option strings given as one string instead of a list. -/
theorem C60_option_string : validate sampleEnv [dictOf [("prog", .str (S "a")),
    ("options", .list [dictOf [("option_strings", .str (S "-a"))]])]] = .error .crash :=
  errorOf_eq (by decide +kernel)

/-- A positional that is not a dictionary. -/
theorem C60_positional : validate sampleEnv [dictOf [("prog", .str (S "a")),
    ("positionals", .list [.str (S "file")])]] = .error .crash :=
  errorOf_eq (by decide +kernel)

/-- `command_arg` looks at the other positionals before they have been checked: one has an empty completer. -/
theorem C60_command_arg_empty : validate sampleEnv [dictOf [("prog", .str (S "a")),
    ("positionals", .list [
      dictOf [("number", .int 1), ("repeatable", .bool true), ("complete", .list [.str (S "command_arg")])],
      dictOf [("number", .int 2), ("complete", .list [])]])]] = .error .crash :=
  errorOf_eq (by decide +kernel)

/-- `command_arg` looks at the other positionals before they have been checked: one has no number. -/
theorem C60_command_arg_number : validate sampleEnv [dictOf [("prog", .str (S "a")),
    ("positionals", .list [
      dictOf [("number", .int 2), ("repeatable", .bool true), ("complete", .list [.str (S "command_arg")])],
      dictOf [("complete", .list [.str (S "command")])]])]] = .error .crash :=
  errorOf_eq (by decide +kernel)

end CC
