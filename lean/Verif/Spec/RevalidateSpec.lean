import Verif.Model.Generation
/-!
# Specification: what a configuration does to hidden and repeatable options, and conditions

Independent of how `_apply_config` works.
-/

namespace CC

/-- The option is hidden under the configuration: it is hidden, and hiding is not disabled. -/
def HiddenUnder (cfg : Config) (o : Opt) : Prop := o.hidden = true ∧ cfg.disabledHidden = false

/-- The option is repeatable under the configuration: it is declared to be, or it leaves this to the configuration and
options are repeatable by default, or the check for repetition is disabled. -/
def RepeatableUnder (cfg : Config) (o : Opt) : Prop :=
  o.repeatable = .val true ∨ (o.repeatable = .inherit ∧ cfg.repeatableOptions = true) ∨ cfg.disabledRepeatable = true

/-- Every condition of an option or a positional of the command is well-formed. -/
def ConditionsParse (isRegex : Str → Bool) (d : CmdData) : Prop :=
  ∀ w, w ≠ [] → ((∃ o ∈ d.options, o.when_ = some w) ∨ ∃ p ∈ d.positionals, p.when_ = some w) →
    ∃ t, parseWhen isRegex w = .ok t

end CC
