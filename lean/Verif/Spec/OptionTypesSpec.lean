import Verif.Model.OptionTypes
import Verif.Spec.CliSpec
import Verif.Lemmas.Cmdline
/-!
# Which kinds of options a command line has (specification)
-/

namespace CC

/-- The form of an option string. -/
def HasStyle : QStyle → Str → Prop
  | .long, s => IsLong s
  | .short, s => IsShort s
  | .old, s => IsOld s

/-- The field of the tuple for a form of option strings and a kind of argument. -/
def OptionTypes.has (t : OptionTypes) : QStyle → ArgKind → Bool
  | .long, .required => t.longRequired
  | .long, .optional => t.longOptional
  | .long, .flag => t.longFlag
  | .short, .required => t.shortRequired
  | .short, .optional => t.shortOptional
  | .short, .flag => t.shortFlag
  | .old, .required => t.oldRequired
  | .old, .optional => t.oldOptional
  | .old, .flag => t.oldFlag

/-- The fields `short`, `long` and `old`. -/
def OptionTypes.any (t : OptionTypes) : QStyle → Bool
  | .long => t.long
  | .short => t.short
  | .old => t.old

/-- The string is an option string of some command of the tree. -/
def TreeOption (root : Cmd) (s : Str) : Prop :=
  ∃ parents c, At root parents c ∧ ∃ o ∈ c.data.options, s ∈ o.strings

/-- Every option string of the tree starts with a dash, is not `--` and contains neither a blank, a comma nor `=`. -/
def PlainTree (root : Cmd) : Prop := ∀ s, TreeOption root s → IsOption s ∧ '=' ∉ s

/-- The values recorded for an option, in order. -/
def Parsed.valuesOf (p : Parsed) (s : Str) : List Str := (p.having.filter (fun o => decide (o.1 = s))).map (·.2)

end CC
