import Verif.Spec.Cmdline
/-!
# The word that is being typed (specification)
-/

namespace CC

/-- What a word that is being typed is meant to be. -/
inductive Typing where
  /-- An operand, or the argument of the option before it. -/
  | operand (w : Str)
  /-- `--name=VALUE` -/
  | value (name v : Str)
  /-- `-xyzVALUE`: flags and an option with its argument. -/
  | attached (cs : Str) (c : Char) (v : Str)

/-- The word. -/
def Typing.word : Typing → Str
  | .operand w => w
  | .value n v => n ++ '=' :: v
  | .attached cs c v => '-' :: (cs ++ c :: v)

/-- The part of the word that is to be completed. -/
def Typing.argument : Typing → Str
  | .operand w => w
  | .value _ v => v
  | .attached _ _ v => v

/-- The option takes an argument. -/
def Takes (kind : Str → Option ArgKind) (s : Str) : Prop := kind s = some .required ∨ kind s = some .optional

/-- The word uses the options as they allow. -/
def Typing.Valid (kind : Str → Option ArgKind) : Typing → Prop
  | .operand w => ∀ c cs, w ≠ '-' :: c :: cs
  | .value n _ => (LongName n ∨ OldName n) ∧ Takes kind n
  | .attached cs c v => (cs ++ [c]).head? ≠ some '-' ∧ FlagsOk kind cs ∧ Takes kind ['-', c] ∧
      ClusterOk kind ('-' :: (cs ++ c :: v))

end CC
