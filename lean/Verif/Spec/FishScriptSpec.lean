import Verif.Spec.OfferedSpec
import Verif.Spec.BashFunctionSpec
import Verif.Spec.OptionTypesSpec
/-!
# Which options may still be given (specification)
-/

namespace CC

open WhenSpec

/-- The option was given, under one of its strings. -/
def GivenIn (l : Line) (o : Opt) : Prop := ∃ s ∈ o.strings, ∃ v, (s, v) ∈ l.given

/-- What is on a command line that consists of items and an ending. -/
def lineOf (its : List Item) (e : Ending) : Line :=
  ⟨(its.flatMap Item.options ++ e.options).map (fun o => (o.1, o.2.getD [])), its.flatMap Item.positionals ++ e.positionals⟩

/-- The condition, if there is one, is true of the command line. -/
def WhenTrueOf (isRegex : Str → Bool) (rx : Bool → Str → Str → Bool) (l : Line) (w : Option Str) : Prop :=
  ∀ t, w = some t → WhenTrue isRegex (holdsTogether rx l) t

/-- The option `o` of the command `x` may be given after the words of `l`, which belong to the command `c`.
`hiddenTyped` says whether a hidden option has been typed out. -/
structure MayBeGiven (isRegex : Str → Bool) (rx : Bool → Str → Str → Bool) (hiddenTyped : List Str → Bool) (l : Line)
    (parents : List Cmd) (c x : Cmd) (o : Opt) : Prop where
  /-- No option was given after which there are no others. -/
  final : ∀ f, FinalHere parents c f → ¬ GivenIn l f
  /-- No option was given that excludes it. -/
  group : ∀ y ∈ x.data.options, ShareGroup o y → y.eqv o = false → ¬ GivenIn l y
  /-- It was not given before, unless it is repeatable. -/
  again : o.repeatable = .val false → ¬ GivenIn l o
  hidden : o.hidden = true → hiddenTyped o.strings = true
  when_ : WhenTrueOf isRegex rx l o.when_
  /-- The arguments of a command that is a positional have not begun. -/
  arguments : ∀ p ∈ c.data.positionals, IsCommandArg p → l.positionals.length < PosPlace parents p

/-- No name or alias of the subcommand `d` of `c` selects it twice. -/
def NamesOnce (c d : Cmd) : Prop :=
  d.data.aliases.Nodup ∧ d.data.prog ∉ d.data.aliases ∧
  (d.data.abbreviateCommands = .val true → ∀ w ∈ d.data.aliases, w <+: d.data.prog →
    ∃ e ∈ c.children, e.data.prog ≠ d.data.prog ∧ w <+: e.data.prog)

/-- Conditions on a tree for its Fish script. -/
structure CleanFish (root : Cmd) : Prop where
  tree : CleanTree root
  /-- The configuration has been applied. -/
  inherit : ∀ parents c, At root parents c → c.data.inheritOptions ≠ .inherit
  /-- Every option has a string; none is `---`, nor begins so. -/
  options : ∀ parents c, At root parents c → ∀ o ∈ c.data.options, o.strings ≠ [] ∧
    ∀ s ∈ o.strings, IsOption s ∧ ∀ r, s ≠ '-' :: '-' :: '-' :: r
  once : ∀ parents c, At root parents c → ∀ d ∈ c.children, NamesOnce c d
  /-- A command with positionals and subcommands passes its options on. -/
  places : ∀ parents c, At root parents c → c.sub.isSome = true → ¬ Inherits c → c.data.positionals = []

/-- `(rs, y)` is the command `(qs, x)` or lies below it. -/
def AtOrBelow (qs : List Cmd) (x : Cmd) (rs : List Cmd) (y : Cmd) : Prop := ∃ rest, rs ++ [y] = qs ++ x :: rest

/-- After `n` positionals, no command argument of another command comes into the way of the options that `c`
inherits. -/
def NoOtherArguments (root : Cmd) (parents : List Cmd) (c : Cmd) (n : Nat) : Prop :=
  ∀ e ∈ inheritedFrom parents c, e ≠ (parents, c) → ∀ rs y, At root rs y → AtOrBelow e.1 e.2 rs y → (rs, y) ≠ (parents, c) →
    ∀ p ∈ y.data.positionals, IsCommandArg p → n < PosPlace rs p

/-- A final option that was given belongs to each command whose options are inherited, or to a parent of it. -/
def FinalsAbove (l : Line) (parents : List Cmd) (c : Cmd) : Prop :=
  ∀ e ∈ inheritedFrom parents c, ∀ f, FinalHere parents c f → GivenIn l f → FinalHere e.1 e.2 f

/-- The names and aliases of the subcommands of a command. -/
def subNames (c : Cmd) : List Str := c.children.flatMap (fun d => d.data.prog :: d.data.aliases)

end CC
