import Verif.Model.Argparse
/-!
# What a converted parser should look like

Read without the conversion: which actions of a parser are options and positionals, and what an
option or positional made from one must say.
-/

namespace CC

/-- The actions of a parser in the order they were added, subparsers left out. -/
def ArgItems.acts : ArgItems → List ArgAction
  | .nil => []
  | .arg a rest => a :: rest.acts
  | .subs _ _ rest => rest.acts

/-- The subparsers actions. -/
def ArgItems.subActions : ArgItems → List (ArgSubs × List (Str × Option Str))
  | .nil => []
  | .arg _ rest => rest.subActions
  | .subs choices helps rest => (choices, helps) :: rest.subActions

/-- The actions before the first subparsers action. -/
def ArgItems.actsBeforeSubs : ArgItems → List ArgAction
  | .nil => []
  | .arg a rest => a :: rest.actsBeforeSubs
  | .subs _ _ _ => []

/-- The names and parsers of a subparsers action. -/
def ArgSubs.entries : ArgSubs → List (Str × ArgParser)
  | .nil => []
  | .cons n p r => (n, p) :: r.entries

/-- The items of a parser. -/
def ArgParser.items : ArgParser → ArgItems
  | .mk _ items => items
/-- The attributes of a parser. -/
def ArgParser.info : ArgParser → ParserInfo
  | .mk info _ => info

/-- An action with option strings is an option; without, it is a positional. -/
def ArgAction.isOption (a : ArgAction) : Bool := !a.optionStrings.isEmpty

/-- The option actions, in order. -/
def ArgParser.optionActions (p : ArgParser) : List ArgAction := p.items.acts.filter (·.isOption)
/-- The positional actions, in order. -/
def ArgParser.positionalActions (p : ArgParser) : List ArgAction :=
  p.items.acts.filter (fun a => !a.isOption)

/-- The actions that read a word from the command line. -/
def ArgAction.takesArgument (a : ArgAction) : Prop :=
  a.kind = .store ∨ a.kind = .extend ∨ a.kind = .append

/-- What is completed for an action that reads words: the completer attached to it, else its
choices, else nothing. -/
inductive CompletesWith (a : ArgAction) : List Val → Prop where
  | own {v} : a.complete = some v → v ≠ [] → CompletesWith a v
  | values {vs} : (a.complete = none ∨ a.complete = some []) → a.choices = some (.values vs) → vs ≠ [] →
      CompletesWith a [.str (S "choices"), .list vs]
  | range {start stop step} : (a.complete = none ∨ a.complete = some []) →
      a.choices = some (.range start stop step) → rangeNonempty start stop step = true →
      CompletesWith a (rangeTuple (rangeToComplete start stop step))
  | nothing : (a.complete = none ∨ a.complete = some []) →
      (a.choices = none ∨ a.choices = some (.values []) ∨
        ∃ start stop step, a.choices = some (.range start stop step) ∧
          rangeNonempty start stop step = false) →
      CompletesWith a [.str (S "none")]

/-- The name shown for the argument of an action. -/
def ArgAction.shownName (a : ArgAction) : Str :=
  match a.metavar with
  | none => a.dest
  | some m => if m = [] then a.dest else m

/-- The option says what the action says (its groups are treated separately). -/
structure OptionOf (a : ArgAction) (o : Opt) : Prop where
  strings : o.strings = a.optionStrings
  takes : o.complete ≠ none ↔ a.takesArgument
  completes : ∀ v, o.complete = some v → CompletesWith a v
  metavar : o.metavar = if o.complete = none then none else some a.shownName
  optional : o.optionalArg = true ↔ a.nargs = .str (S "?")
  repeatable : o.repeatable = a.repeatable
  final : o.final = true ↔ a.kind = .help ∨ a.kind = .version ∨ a.final = true
  hidden : o.hidden = true ↔ a.help = some suppress
  help : o.help = if o.hidden = true then none else a.help
  when_ : o.when_ = a.when_
  others : o.nosort = false ∧ o.capture = none ∧ o.longSep = .inherit

/-- The positional says what the action says. -/
structure PositionalOf (a : ArgAction) (p : Pos) : Prop where
  completes : (a.takesArgument ∧ CompletesWith a p.complete) ∨
    (¬ a.takesArgument ∧ p.complete = [.str (S "none")])
  metavar : p.metavar = some a.shownName
  repeatable : p.repeatable = false ↔ a.nargs = .none ∨ a.nargs = .num 1 ∨ a.nargs = .str (S "?")
  help : p.help = a.help
  when_ : p.when_ = a.when_
  others : p.nosort = false ∧ p.capture = none

/-- The name a converted subparser gets. -/
def subName (e : Str × ArgParser) : Str := if e.1 = [] then e.2.info.prog else e.1

/-- Actions that can be converted. -/
def ArgAction.Supported (a : ArgAction) : Prop :=
  a.kind ≠ .booleanOptional ∧ a.kind ≠ .other ∧
  (a.isOption = true →
    (∀ s ∈ a.optionStrings, isValidOptionString s = true) ∧
    (a.nargs = .str (S "?") → a.takesArgument) ∧
    ¬ (a.help = some suppress ∧ a.repeatable = .val true))

mutual
/-- Parsers that can be converted. -/
def ArgParser.Supported : ArgParser → Prop
  | .mk info items =>
    (∀ a ∈ info.aliases, ¬ (' ' ∈ a ∨ '\t' ∈ a ∨ '\n' ∈ a)) ∧
    items.subActions.length ≤ 1 ∧ items.Supported
/-- Every action can be converted. -/
def ArgItems.Supported : ArgItems → Prop
  | .nil => True
  | .arg a rest => a.Supported ∧ rest.Supported
  | .subs choices helps rest =>
    (∀ e ∈ helps, e.1 ∈ choices.entries.map (·.1)) ∧ (choices.entries.map subName).Nodup ∧
    choices.Supported ∧ rest.Supported
/-- Every subparser can be converted. -/
def ArgSubs.Supported : ArgSubs → Prop
  | .nil => True
  | .cons _ p rest => p.Supported ∧ rest.Supported
end

end CC
