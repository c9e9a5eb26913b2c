import Verif.Model.Value
import Verif.Model.OptionString
/-!
# Model of `crazy_complete/cli.py`

Parent links are not stored: a command inside a tree is given together with its ancestors.
Python's type checks on constructor arguments are replaced by Lean types. `ExtendedBool` is
`True`, `False` or `INHERIT`.
-/

namespace CC

/-- `ExtendedBool`, `cli.py` 24-31. -/
inductive ExtBool where
  | inherit
  | val (b : Bool)
  deriving DecidableEq, Repr

/-- The values of `long_opt_arg_sep`, `cli.py` 721. -/
inductive LongSep where
  | inherit | space | equals | both
  deriving DecidableEq, Repr

/-- `Option`, the attributes set in `cli.py` 724-737. -/
structure Opt where
  strings : List Str
  metavar : Option Str := none
  help : Option Str := none
  complete : Option (List Val) := none
  nosort : Bool := false
  groups : Option (List Str) := none
  optionalArg : Bool := false
  repeatable : ExtBool := .inherit
  final : Bool := false
  hidden : Bool := false
  when_ : Option Str := none
  capture : Option Str := none
  longSep : LongSep := .inherit
  deriving DecidableEq

/-- `Positional`, the attributes set in `cli.py` 527-535. -/
structure Pos where
  number : Nat
  metavar : Option Str := none
  help : Option Str := none
  complete : List Val := [.str (S "none")]
  nosort : Bool := false
  repeatable : Bool := false
  when_ : Option Str := none
  capture : Option Str := none
  deriving DecidableEq

/-- The attributes of `CommandLine` other than the subcommands, `cli.py` 104-114. -/
structure CmdData where
  prog : Str
  help : Option Str := none
  aliases : List Str := []
  wraps : Option Str := none
  abbreviateCommands : ExtBool := .inherit
  abbreviateOptions : ExtBool := .inherit
  inheritOptions : ExtBool := .inherit
  options : List Opt := []
  positionals : List Pos := []
  deriving DecidableEq

/-- `CommandLine` with its subcommands: `sub` is the number stored in the `SubCommandsOption`,
or `none` if there is no such object; `children` are its subcommands (empty if `sub` is `none`). -/
inductive Cmd where
  | node (data : CmdData) (sub : Option Nat) (children : List Cmd)

/-- The attributes. -/
def Cmd.data : Cmd → CmdData
  | .node d _ _ => d
/-- The number of the subcommands option. -/
def Cmd.sub : Cmd → Option Nat
  | .node _ s _ => s
/-- The subcommands. -/
def Cmd.children : Cmd → List Cmd
  | .node _ _ ch => ch

/-! ## Constructors -/

/-- `contains_space`, `str_utils.py` 16-19. -/
def containsSpace (s : Str) : Bool := s.contains ' ' || s.contains '\t' || s.contains '\n'

/-- Python truth of an optional list. -/
def truthyList {α} : Option (List α) → Bool
  | none => false
  | some l => !l.isEmpty

/-- The check of `capture`, `cli.py` 714-715 and 523-524. -/
def captureOk : Option Str → Bool
  | none => true
  | some c => isValidVariableName c

/-- The checks of `Option.__init__`, `cli.py` 705-722 (type checks aside). -/
def Opt.check (o : Opt) : Bool :=
  !o.strings.isEmpty && o.strings.all isValidOptionString &&
  captureOk o.capture &&
  !((match o.metavar with | none => false | some m => !m.isEmpty) && !truthyList o.complete) &&
  !(o.optionalArg && !truthyList o.complete) &&
  !(o.hidden && decide (o.repeatable = .val true))

/-- `Positional.__init__`, `cli.py` 521-535: the checks; `complete` falls back to `['none']`. -/
def Pos.init (p : Pos) : Except Err Pos :=
  if captureOk p.capture && decide (p.number > 0) then
    .ok { p with complete := if p.complete.isEmpty then [.str (S "none")] else p.complete }
  else .error .crazyError

/-- The checks of `CommandLine.__init__`, `cli.py` 79-102 (type checks aside). -/
def CmdData.check (d : CmdData) : Bool :=
  (match d.wraps with | none => true | some w => !(strip w).isEmpty && !containsSpace w) &&
  d.aliases.all (fun a => !containsSpace a)

/-- `Option(...)`, `cli.py` 602-737. -/
def Opt.init (o : Opt) : Except Err Opt := if o.check then .ok o else .error .crazyError

/-! ## Equality -/

/-- `Option.__eq__`, `cli.py` 827-842: `long_opt_arg_sep` is not compared. -/
def Opt.eqv (a b : Opt) : Bool := decide ({ a with longSep := b.longSep } = b)

mutual
/-- `CommandLine.__eq__`, `cli.py` 437-450, and `SubCommandsOption.__eq__`, 895-902, which does not
compare the number (help, metavar and complete are the same for all). -/
def Cmd.eqv : Cmd → Cmd → Bool
  | .node d s ch, .node d' s' ch' =>
    decide ({ d with options := [], positionals := [] } = { d' with options := [], positionals := [] }) &&
    (d.options.length == d'.options.length && (d.options.zip d'.options).all (fun p => p.1.eqv p.2)) &&
    decide (d.positionals = d'.positionals) &&
    s.isSome == s'.isSome && Cmd.eqvList ch ch'
/-- Equality of lists of commands. -/
def Cmd.eqvList : List Cmd → List Cmd → Bool
  | [], [] => true
  | a :: as, b :: bs => a.eqv b && Cmd.eqvList as bs
  | _, _ => false
end

/-! ## Options -/

/-- String comparison by code points, as Python's `sorted` does. -/
def strLe : Str → Str → Bool
  | [], _ => true
  | _ :: _, [] => false
  | a :: as, b :: bs => if a.toNat < b.toNat then true else if a = b then strLe as bs else false

/-- Insert a string in a sorted list. -/
def insertStr (a : Str) : List Str → List Str
  | [] => [a]
  | b :: bs => if strLe a b then a :: b :: bs else b :: insertStr a bs

/-- Python's `sorted` on strings. The order is total and antisymmetric, so every sorting algorithm
gives the same list. -/
def sortStrs (l : List Str) : List Str := l.foldr insertStr []

/-- `Option.get_option_strings_key`, `cli.py` 753-756. -/
def Opt.keyWith (delim : Str) (o : Opt) : Str := joinWith delim (sortStrs o.strings)

/-- The key with the default delimiter, a space. -/
def Opt.key (o : Opt) : Str := o.keyWith [' ']

/-- `Option.get_short_option_strings`, `cli.py` 758-765. -/
def Opt.shortStrings (o : Opt) : List Str := o.strings.filter isShortOptionString
/-- `Option.get_long_option_strings`, `cli.py` 767-774. -/
def Opt.longStrings (o : Opt) : List Str := o.strings.filter isLongOptionString
/-- `Option.get_old_option_strings`, `cli.py` 776-783. -/
def Opt.oldStrings (o : Opt) : List Str := o.strings.filter isOldOptionString

/-- `Option.has_required_arg`, `cli.py` 817-820. -/
def Opt.hasRequiredArg (o : Opt) : Bool := o.complete.isSome && !o.optionalArg
/-- `Option.has_optional_arg`, `cli.py` 822-825. -/
def Opt.hasOptionalArg (o : Opt) : Bool := o.complete.isSome && o.optionalArg

/-- `option in r` with `Option.__eq__`. -/
def optMem (o : Opt) (r : List Opt) : Bool := r.any (fun x => x.eqv o)

/-- The loops of `get_conflicting_options`, `cli.py` 795-800. -/
def conflictLoop (options : List Opt) (groups : List Str) : List Opt :=
  groups.foldl (fun r g => options.foldl (fun r o =>
    if (match o.groups with | none => false | some gs => gs.contains g) && !optMem o r
    then r ++ [o] else r) r) []

/-- `list.remove` with `Option.__eq__`: `none` is ValueError. -/
def removeFirst (o : Opt) : List Opt → Option (List Opt)
  | [] => none
  | x :: xs => if x.eqv o then some xs else (removeFirst o xs).map (x :: ·)

/-- `Option.get_conflicting_options`, `cli.py` 785-802, for an option of a command with the given
options. -/
def conflictingOptions (options : List Opt) (self : Opt) : Except Err (List Opt) :=
  if truthyList self.groups then
    match removeFirst self (conflictLoop options (self.groups.getD [])) with
    | none => .error .valueError
    | some r => .ok r
  else .ok []

/-! ## `get_options` -/

/-- `OptionsGetter._add`, `cli.py` 182-190. The dictionary maps a key to a command and options. -/
def getterAdd (o : Opt) (c : Cmd) : List (Str × Cmd × List Opt) → List (Str × Cmd × List Opt)
  | [] => [(o.key, c, [o])]
  | (k, c', os) :: r =>
    if k = o.key then (k, c', if c'.eqv c then os ++ [o] else os) :: r
    else (k, c', os) :: getterAdd o c r

/-- The loops of `OptionsGetter.__init__`, `cli.py` 178-181. -/
def getterRun (onlyWithArgs : Bool) (cmds : List Cmd) : List (Str × Cmd × List Opt) :=
  cmds.foldl (fun d c => c.data.options.foldl (fun d o =>
    if !onlyWithArgs || truthyList o.complete then getterAdd o c d else d) d) []

/-- `CommandLine.get_options`, `cli.py` 167-222. `parents` are the ancestors, root first. -/
def getOptions (parents : List Cmd) (c : Cmd) (withParents onlyWithArgs : Bool) : List Opt :=
  let cmds := if withParents then parents ++ [c] else [c]
  (getterRun onlyWithArgs cmds.reverse).flatMap (fun e => e.2.2)

/-- `CommandLine.get_option_strings`, `cli.py` 224-250. -/
def getOptionStrings (parents : List Cmd) (c : Cmd) (withParents onlyWithArgs : Bool) : List Str :=
  (getOptions parents c withParents onlyWithArgs).flatMap (·.strings)

/-- `CommandLine.get_final_options`, `cli.py` 252-264: own options first, then the parents'. -/
def getFinalOptions (parents : List Cmd) (c : Cmd) : List Opt :=
  (c :: parents.reverse).flatMap (fun c => c.data.options.filter (·.final))

/-- The first option of the command containing the string, `cli.py` 337-342. -/
def findOption (options : List Opt) (s : Str) : Option Opt :=
  options.find? (fun o => o.strings.contains s)

/-- The loop of `get_options_by_option_strings`, `cli.py` 335-346. -/
def optionsByStringsGo (options : List Opt) : List Opt → List Str → Except Err (List Opt)
  | r, [] => .ok r
  | r, s :: ss =>
    match findOption options s with
    | none => .error .crazyError
    | some o => optionsByStringsGo options (if optMem o r then r else r ++ [o]) ss

/-- `CommandLine.get_options_by_option_strings`, `cli.py` 330-346. -/
def optionsByStrings (options : List Opt) (ss : List Str) : Except Err (List Opt) :=
  optionsByStringsGo options [] ss

/-! ## Positionals -/

/-- `max` over the positional numbers, starting from 0, `cli.py` 351-353 and 551-553. -/
def highestNumber (ps : List Pos) : Nat := ps.foldl (fun h p => max h p.number) 0

/-- `CommandLine.get_highest_positional_num`, `cli.py` 348-356. -/
def Cmd.highestPositionalNum (c : Cmd) : Nat :=
  highestNumber c.data.positionals + (if c.sub.isSome then 1 else 0)

/-- `Positional.get_positional_index`, `cli.py` 539-558; `number` may also be that of the
subcommands option. -/
def positionalIndex (parents : List Cmd) (number : Nat) : Nat :=
  parents.foldl (fun n c => n + highestNumber c.data.positionals + (if c.sub.isSome then 1 else 0))
    (number - 1)

/-- `Positional.get_positional_num`, `cli.py` 560-570. -/
def positionalNum (parents : List Cmd) (number : Nat) : Nat := positionalIndex parents number + 1

/-! ## Traversal -/

mutual
/-- `CommandLine.get_all_commandlines`, `cli.py` 373-386. -/
def Cmd.all : Cmd → List Cmd
  | .node d s ch => .node d s ch :: Cmd.allList ch
/-- The loop over the subcommands, `cli.py` 378-379. -/
def Cmd.allList : List Cmd → List Cmd
  | [] => []
  | c :: cs => c.all ++ Cmd.allList cs
end

/-- `CommandLine.get_command_path`, `cli.py` 364-371. -/
def commandPath (parents : List Cmd) (c : Cmd) : Str :=
  joinWith [' '] ((parents ++ [c]).map (fun c => c.data.prog))

/-! ## Building -/

/-- `SubCommandsOption.get_subcommand_by_name`, `cli.py` 887-893. -/
def subByName (children : List Cmd) (name : Str) : Option Cmd :=
  children.find? (fun c => decide (c.data.prog = name))

/-- `SubCommandsOption.add_commandline_object`, `cli.py` 860-867. -/
def addSub (children : List Cmd) (c : Cmd) : Except Err (List Cmd) :=
  if (subByName children c.data.prog).isSome then .error .crazyError else .ok (children ++ [c])

/-- Adding several subcommands one after the other. -/
def addSubs : List Cmd → List Cmd → Except Err (List Cmd)
  | children, [] => .ok children
  | children, c :: cs => do addSubs (← addSub children c) cs

/-- `CommandLine.add_subcommands`, `cli.py` 146-160, and `SubCommandsOption.__init__`, 852-858: the
number given to the subcommands option. -/
def Cmd.addSubcommands : Cmd → Except Err Cmd
  | .node d none _ => .ok (.node d (some ((Cmd.node d none []).highestPositionalNum + 1)) [])
  | .node _ (some _) _ => .error .crazyError

/-- Run a constructor over a list. -/
def initAll {α} (f : α → Except Err α) : List α → Except Err (List α)
  | [] => .ok []
  | x :: xs => do
    let y ← f x
    let ys ← initAll f xs
    .ok (y :: ys)

mutual
/-- `CommandLine.copy`, `cli.py` 388-435. -/
def Cmd.copy : Cmd → Except Err Cmd
  | .node d s ch => do
    if !d.check then throw .crazyError
    let os ← initAll Opt.init d.options
    let ps ← initAll Pos.init d.positionals
    let d' := { d with options := os, positionals := ps }
    match s with
    | none => .ok (.node d' none [])
    | some _ =>
      let cs ← Cmd.copyList ch
      let cs' ← addSubs [] cs
      .ok (.node d' (some (highestNumber ps + 1)) cs')
/-- Copies of the subcommands, `cli.py` 432-433. (Simplification: all copies are made before the
first is added.) -/
def Cmd.copyList : List Cmd → Except Err (List Cmd)
  | [] => .ok []
  | c :: cs => do
    let c' ← c.copy
    let cs' ← Cmd.copyList cs
    .ok (c' :: cs')
end

end CC
