import Verif.Model.FishConds
import Verif.Model.OptionTypes
import Verif.Model.FishUtils
import Verif.Model.BashFunction
/-!
# Model of `crazy_complete/fish.py`: the `complete` commands of the generated script

Every `complete` command is modelled by the option names it defines, its conditions, and what it is for
(an option, a positional, or the subcommands). Left out: the description, the flags and the arguments of the
command (`FishCompleteCommand` is modelled in `Model/FishUtils.lean`), and the variables that replace the texts of
conditions (`VariableManager`, same file).
-/

namespace CC

open ShellGrammar (Tok run)

/-- What a `complete` command completes. -/
inductive FishTarget where
  | option (o : Opt)
  | positional (p : Pos)
  | subcommands (names : List Str)

/-- `FishCompletionDefinition`, `fish.py` 21-57: the option names, what is completed, and the conditions. -/
structure FishDef where
  short : List Str := []
  long : List Str := []
  old : List Str := []
  target : FishTarget
  conds : List FishCond := []
  when_ : List (Tok Cond) := []

/-- `when_parsed`, `generation.py` 99-123: no tokens if there is no condition or it is empty. -/
def whenTokens (isRegex : Str → Bool) : Option Str → Except Err (List (Tok Cond))
  | none => .ok []
  | some [] => .ok []
  | some w => parseWhen isRegex w

/-- The loop of `_get_positional_contains`, `fish.py` 92-103, over the commands from a parent down to the
command; `parents` are the parents of the first. -/
def fishPathGo : List Cmd → List Cmd → List FishCond
  | parents, p :: c :: rest =>
    .prim (.posContains false (positionalNum parents (p.sub.getD 0)) (variations p c)) ::
      fishPathGo (parents ++ [p]) (c :: rest)
  | _, _ => []

/-- `_get_positional_contains`, `fish.py` 92-103. -/
def fishPath (parents : List Cmd) (c : Cmd) : List FishCond := fishPathGo [] (parents ++ [c])

/-- The condition for commands that do not pass their options on, `fish.py` 219-223. -/
def fishPlace (parents : List Cmd) (c : Cmd) : List FishCond :=
  match c.sub with
  | none => []
  | some n =>
    if c.data.inheritOptions = .val false then [.prim (.posCount .eq ((positionalNum parents n : Int) - 1))] else []

/-- `_complete_option`, `fish.py` 183-228. -/
def fishOption (isRegex : Str → Bool) (parents : List Cmd) (c : Cmd) (o : Opt) : Except Err FishDef := do
  let conflicting ← conflictingOptions c.data.options o
  let when_ ← whenTokens isRegex o.when_
  let notHas := (getFinalOptions parents c).flatMap (·.strings) ++ conflicting.flatMap (·.strings) ++
    (if o.repeatable = .val false then o.strings else [])
  .ok {
    short := o.shortStrings
    long := o.longStrings
    old := o.oldStrings
    target := .option o
    conds :=
      (if notHas.isEmpty then [] else [.not (.prim (.hasOption (uniq notHas)))]) ++
      (if o.hidden then [.hidden o.strings] else []) ++
      fishPlace parents c ++ fishPath parents c
    when_ := when_ }

/-- `_complete_positional`, `fish.py` 230-254. -/
def fishPositional (isRegex : Str → Bool) (parents : List Cmd) (c : Cmd) (p : Pos) : Except Err FishDef := do
  let when_ ← whenTokens isRegex p.when_
  .ok {
    target := .positional p
    conds := fishPath parents c ++
      [.prim (.posCount (if p.repeatable then .ge else .eq) ((positionalNum parents p.number : Int) - 1))]
    when_ := when_ }

/-- `_complete_subcommands`, `fish.py` 256-271: the names are those of `get_choices`, `cli.py` 879-888
(there a dictionary, in which equal names are one). -/
def fishSubcommands (parents : List Cmd) (c : Cmd) (n : Nat) : FishDef :=
  { target := .subcommands (c.children.flatMap (fun d => d.data.prog :: d.data.aliases))
    conds := .prim (.posCount .eq ((positionalNum parents n : Int) - 1)) :: fishPath parents c }

/-- The definitions of a command before `_fix_command_arg`, `fish.py` 123-135. -/
def fishOwnDefs (isRegex : Str → Bool) (parents : List Cmd) (c : Cmd) : Except Err (List FishDef) := do
  let os ← mapE (fishOption isRegex parents c) (getOptions parents c false false)
  let ps ← mapE (fishPositional isRegex parents c) c.data.positionals
  let ss := match c.sub with
    | some n => [fishSubcommands parents c n]
    | none => []
  .ok (os ++ ps ++ ss)

/-- The numbers that `_fix_command_arg` is called with on the generator of a command, `fish.py` 137-142: the
places of the `command_arg` positionals of the command and of all commands below it. -/
def commandArgNums (parents : List Cmd) (c : Cmd) : List Nat :=
  (c.walk parents).flatMap (fun e => (e.2.data.positionals.filter Pos.isCommandArg).map
    (fun p => positionalNum e.1 p.number))

/-- `_fix_command_arg`, `fish.py` 160-167, for one definition and all numbers. (An option with the completer
`command_arg` would make the generator fail, having no number; the validator rejects it, see C60.) -/
def FishDef.fix (nums : List Nat) (d : FishDef) : FishDef :=
  if d.short.isEmpty && d.long.isEmpty && d.old.isEmpty then d
  else { d with conds := d.conds ++ nums.map (fun (n : Nat) => .not (.prim (.posCount .ge ((n : Int) - 1)))) }

/-- The definitions of a command, `fish.py` 123-142. -/
def fishDefsOf (isRegex : Str → Bool) (parents : List Cmd) (c : Cmd) : Except Err (List FishDef) := do
  let ds ← fishOwnDefs isRegex parents c
  .ok (ds.map (FishDef.fix (commandArgNums parents c)))

/-- The `complete` commands of the script, `fish.py` 329-334, command by command. -/
def fishScript (isRegex : Str → Bool) (root : Cmd) : Except Err (List FishDef) := do
  let ds ← mapE (fun e => fishDefsOf isRegex e.1 e.2) (root.walk [])
  .ok ds.flatten

/-! ## What Fish does with them -/

/-- All conditions of the `complete` command succeed (`get_complete_cmd`, `fish.py` 59-89 and 144-155; the first condition,
`$P`, runs the prepare function, which returns 0). -/
def FishDef.active (v : FishPrim → Bool) (d : FishDef) : Prop :=
  ∃ texts, getConditions d.conds d.when_ = .ok texts ∧ ∀ t ∈ texts, run v t = some true

/-- The option strings that Fish offers for a `complete` command: `-s x` stands for `-x`, `-l name` for `--name`
and `-o name` for `-name`. (Without stacking of short options, they are passed with `-o`, `fish.py` 68-73; that
makes no difference here.) -/
def FishDef.offers (d : FishDef) : List Str :=
  d.short.map (fun s => '-' :: stripDashes s) ++ d.long.map (fun s => '-' :: '-' :: stripDashes s) ++
    d.old.map (fun s => '-' :: stripDashes s)

end CC
