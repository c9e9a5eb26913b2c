import Verif.Model.Cli
import Verif.Model.Range
/-!
# Model of `argumentparser_to_commandline` (`crazy_complete/argparse_source.py`)

The input is what `argparse` keeps in a parser: the list `_actions` and the list
`_mutually_exclusive_groups`. Warnings are not modelled.
-/

namespace CC

/-- The classes tested in `get_complete`, `argparse_source.py` 43-77. -/
inductive ActionKind where
  | help | version | storeTrue | storeFalse | storeConst | appendConst | count
  | store | extend | append
  | booleanOptional | other
  deriving DecidableEq, Repr

/-- `action.nargs`: absent, a number or a string. -/
inductive Nargs where
  | none
  | num (n : Nat)
  | str (s : Str)
  deriving DecidableEq, Repr

/-- `action.choices`: a `range` object or another container, given by the list of its members. -/
inductive ArgChoices where
  | range (start stop step : Int)
  | values (items : List Val)
  deriving DecidableEq

/-- An action of a parser, other than the one made by `add_subparsers`. The last four attributes are
those added by `argparse_mod.py`. -/
structure ArgAction where
  kind : ActionKind
  optionStrings : List Str := []
  nargs : Nargs := .none
  dest : Str := []
  metavar : Option Str := none
  choices : Option ArgChoices := none
  help : Option Str := none
  complete : Option (List Val) := none
  when_ : Option Str := none
  repeatable : ExtBool := .inherit
  final : Bool := false
  deriving DecidableEq

/-- The attributes of a parser other than its actions; `groups` is `_mutually_exclusive_groups`, each
given by the `option_strings` of its `_group_actions`. -/
structure ParserInfo where
  prog : Str
  description : Option Str := none
  aliases : List Str := []
  groups : List (List (List Str)) := []
  deriving DecidableEq

mutual
/-- A parser. -/
inductive ArgParser where
  | mk (info : ParserInfo) (items : ArgItems)
/-- `_actions`: a list of actions and of subparsers actions. A subparsers action is given by its
`choices`, in order, and by the names and help texts of its `_get_subactions()`. -/
inductive ArgItems where
  | nil
  | arg (a : ArgAction) (rest : ArgItems)
  | subs (choices : ArgSubs) (helps : List (Str × Option Str)) (rest : ArgItems)
/-- The dictionary from names to parsers. -/
inductive ArgSubs where
  | nil
  | cons (name : Str) (parser : ArgParser) (rest : ArgSubs)
end

/-- `argparse.SUPPRESS`. -/
def suppress : Str := S "==SUPPRESS=="

/-- `bool(r)` for a range. -/
def rangeNonempty (start stop step : Int) : Bool :=
  (decide (step > 0) && decide (start < stop)) || (decide (step < 0) && decide (stop < start))

/-- The tuple of `range_to_complete`, `argparse_source.py` 29-32. -/
def rangeTuple (r : RangeArgs) : List Val :=
  match r.step with
  | none => [.str (S "range"), .int r.start, .int r.stop]
  | some step => [.str (S "range"), .int r.start, .int r.stop, .int step]

/-- The choices, `argparse_source.py` 65-70. -/
def choicesComplete : Option ArgChoices → List Val
  | none => [.str (S "none")]
  | some (.range start stop step) =>
    if rangeNonempty start stop step then rangeTuple (rangeToComplete start stop step)
    else [.str (S "none")]
  | some (.values items) =>
    if items.isEmpty then [.str (S "none")] else [.str (S "choices"), .list items]

/-- `get_complete`, `argparse_source.py` 35-77. -/
def argComplete (a : ArgAction) : Except Err (Option (List Val)) :=
  match a.kind with
  | .help | .version | .storeTrue | .storeFalse | .storeConst | .appendConst | .count => .ok none
  | .store | .extend | .append =>
    if truthyList a.complete then .ok a.complete else .ok (some (choicesComplete a.choices))
  | .booleanOptional => .error .crazyError
  | .other => .error .crazyError

/-- `get_final`, `argparse_source.py` 80-86. -/
def argFinal (a : ArgAction) : Bool :=
  match a.kind with
  | .help | .version => true
  | _ => a.final

/-- `a or b` for an optional string and a string. -/
def orStr (a : Option Str) (b : Str) : Str :=
  match a with
  | none => b
  | some s => if s.isEmpty then b else s

/-- `a or b` for two optional strings. -/
def orOpt (a b : Option Str) : Option Str :=
  match a with
  | none => b
  | some s => if s.isEmpty then b else some s

/-- `is_repeatable`, `argparse_source.py` 132-138. -/
def argRepeatable : Nargs → Bool
  | .none => false
  | .num n => !(n == 1)
  | .str s => if s = S "+" ∨ s = S "*" then true else if s = S "?" then false else true

/-- The positional made from an action, `argparse_source.py` 131-148. -/
def argPositional (number : Nat) (a : ArgAction) : Except Err Pos := do
  let complete ← argComplete a
  Pos.init { number := number, metavar := some (orStr a.metavar a.dest),
             complete := complete.getD [], help := a.help, repeatable := argRepeatable a.nargs,
             when_ := a.when_ }

/-- The arguments given to `add_option`, `argparse_source.py` 151-176. -/
def argOptionOf (a : ArgAction) (complete : Option (List Val)) : Opt :=
  { strings := a.optionStrings,
    metavar := if truthyList complete then some (orStr a.metavar a.dest) else none,
    complete := complete,
    help := if a.help = some suppress then none else a.help,
    optionalArg := decide (a.nargs = .str (S "?")),
    repeatable := a.repeatable,
    final := argFinal a,
    hidden := decide (a.help = some suppress),
    when_ := a.when_ }

/-- The option made from an action, `argparse_source.py` 149-176. -/
def argOption (a : ArgAction) : Except Err Opt := do
  let complete ← argComplete a
  (argOptionOf a complete).init

/-- `option.groups = [group]` for the options sharing a string with an action of the group,
`argparse_source.py` 183-189 and `cli.py` 938-942. `get_options()` without parents lists every option
of the command. -/
def joinGroup (name : Str) (actions : List (List Str)) (o : Opt) : Opt :=
  if actions.any (fun strings => strings.any (fun s => o.strings.contains s)) then
    { o with groups := some [name] }
  else o

/-- The name of a group, `argparse_source.py` 181. -/
def groupName (n : Nat) : Str := S "group" ++ natStr n

/-- The loop over the groups, `argparse_source.py` 178-189. -/
def joinGroups : Nat → List (List (List Str)) → List Opt → List Opt
  | _, [], opts => opts
  | n, g :: gs, opts => joinGroups (n + 1) gs (opts.map (joinGroup (groupName (n + 1)) g))

/-- Add an option or a positional to a command. -/
def Cmd.setOptions (c : Cmd) (f : List Opt → List Opt) : Cmd :=
  .node { c.data with options := f c.data.options } c.sub c.children
/-- The same for positionals. -/
def Cmd.setPositionals (c : Cmd) (f : List Pos → List Pos) : Cmd :=
  .node { c.data with positionals := f c.data.positionals } c.sub c.children

/-- The help text of a subparser, `argparse_source.py` 121-122: the last one set. -/
def subHelp (helps : List (Str × Option Str)) (name : Str) : Option Str :=
  helps.foldl (fun h e => if e.1 = name then e.2 else h) none

/-- The names of the subparsers. -/
def ArgSubs.names : ArgSubs → List Str
  | .nil => []
  | .cons n _ r => n :: r.names

/-- The attributes a command starts with, `argparse_source.py` 106-112. -/
def startData (info : ParserInfo) (prog : Str) (description : Option Str) : CmdData :=
  { prog := if prog.isEmpty then info.prog else prog,
    help := orOpt description info.description,
    aliases := info.aliases }

mutual
/-- `argumentparser_to_commandline`, `argparse_source.py` 89-191. `CommandLine.__init__` is called
with `help` and `aliases`. -/
def argToCmd : ArgParser → Str → Option Str → Except Err Cmd
  | .mk info items, prog, description =>
    if (startData info prog description).check then do
      let c ← argItems items 0 (.node (startData info prog description) none [])
      .ok (c.setOptions (joinGroups 0 info.groups))
    else .error .crazyError
/-- The loop over the actions, `argparse_source.py` 115-176. The second argument is
`positional_number`. -/
def argItems : ArgItems → Nat → Cmd → Except Err Cmd
  | .nil, _, c => .ok c
  | .arg a rest, n, c =>
    if a.optionStrings.isEmpty then do
      let p ← argPositional (n + 1) a
      argItems rest (n + 1) (c.setPositionals (· ++ [p]))
    else do
      let o ← argOption a
      argItems rest n (c.setOptions (· ++ [o]))
  | .subs choices helps rest, n, c =>
    if helps.all (fun e => choices.names.contains e.1) then do
      let c' ← c.addSubcommands
      let children ← argSubs choices helps []
      argItems rest n (.node c'.data c'.sub children)
    else .error .crash
/-- The loop over the subparsers, `argparse_source.py` 125-127. -/
def argSubs : ArgSubs → List (Str × Option Str) → List Cmd → Except Err (List Cmd)
  | .nil, _, children => .ok children
  | .cons name parser rest, helps, children => do
    let c ← argToCmd parser name (subHelp helps name)
    let children' ← addSub children c
    argSubs rest helps children'
end

end CC
