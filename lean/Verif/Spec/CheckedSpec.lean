import Verif.Spec.RevalidateSpec
import Verif.Spec.ValidatorSpec
import Verif.Spec.CliSpec
/-!
# Specification: the command lines that may reach the generators

In terms of the objects, independent of the documents that the second validation makes of them.
-/

namespace CC

/-- An option as documented. -/
structure OptionChecked (env : ValEnv) (o : Opt) : Prop where
  /-- at least one option string, and only option strings -/
  strings : o.strings ≠ [] ∧ ∀ s ∈ o.strings, IsOption s
  /-- an argument needs a completer -/
  argument : o.metavar.isSome = true ∨ o.optionalArg = true → o.complete.isSome = true
  /-- a hidden option is not repeatable -/
  hidden : o.hidden = true → o.repeatable ≠ .val true
  /-- the completer has a documented form -/
  complete : ∀ c, o.complete = some c → Doc.Completer env (fun n => n ≠ S "command_arg") (.list c)
  /-- the condition is well-formed -/
  condition : ∀ w, o.when_ = some w → ∃ t, parseWhen env.isRegex w = .ok t

/-- The positional is repeatable and follows a positional that completes a command. -/
def FollowsCommand (ps : List Pos) (p : Pos) : Prop :=
  p.repeatable = true ∧ ∃ q ∈ ps, q.number + 1 = p.number ∧ ∃ rest, q.complete = .str (S "command") :: rest

/-- A positional as documented; `ps` are all positionals of the command. -/
structure PositionalChecked (env : ValEnv) (ps : List Pos) (p : Pos) : Prop where
  number : 1 ≤ p.number
  complete : Doc.Completer env (fun n => n = S "command_arg" → FollowsCommand ps p) (.list p.complete)
  condition : ∀ w, p.when_ = some w → ∃ t, parseWhen env.isRegex w = .ok t
  /-- nothing follows a repeatable positional -/
  last : p.repeatable = true → ∀ q ∈ ps, q.number ≤ p.number

/-- A command as documented. -/
structure CommandChecked (env : ValEnv) (x : Cmd) : Prop where
  options : ∀ o ∈ x.data.options, OptionChecked env o
  positionals : ∀ p ∈ x.data.positionals, PositionalChecked env x.data.positionals p
  /-- neither does a subcommand -/
  subcommands : x.children ≠ [] → ∀ p ∈ x.data.positionals, p.repeatable = false

/-- A command without the two completers whose place is restricted in ways that the validator gets wrong in places
(`C35_none_after_prefix`): completers use neither `none` (except as the whole completer of a positional) nor
`command_arg`. -/
structure SimplyCompleted (env : ValEnv) (x : Cmd) : Prop where
  options : ∀ o ∈ x.data.options, ∀ c, o.complete = some c →
    Doc.Completer env (fun n => n ≠ S "none" ∧ n ≠ S "command_arg") (.list c)
  positionals : ∀ p ∈ x.data.positionals, p.complete = [.str (S "none")] ∨
    Doc.Completer env (fun n => n ≠ S "none" ∧ n ≠ S "command_arg") (.list p.complete)

/-- The names in the tree are without blanks. -/
def NoBlankNames (c : Cmd) : Prop := ∀ a x, c.at a = some x → ' ' ∉ x.data.prog

end CC
