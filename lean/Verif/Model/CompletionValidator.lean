import Verif.Model.Validator
import Verif.Model.Generation
/-!
# Model of `crazy_complete/completion_validator.py`

Command line objects are turned back into documents (with all attributes, also those that are None), and
the documents are checked by the validator of `scheme_validator.py`.
-/

namespace CC

/-- A text or None. -/
def textVal : Option Str → Val
  | none => .none
  | some s => .str s

/-- A list or None. -/
def listOrNone : Option (List Val) → Val
  | none => .none
  | some l => .list l

/-- A bool or `INHERIT`. -/
def extendedVal : ExtBool → Val
  | .inherit => .str (S "INHERIT")
  | .val b => .bool b

/-- The entries of `_option_to_definition`, `completion_validator.py` 37-51. -/
def optionEntries (o : Opt) : List (Key × Val) := [
  (.str (S "option_strings"), .list (o.strings.map .str)),
  (.str (S "metavar"), textVal o.metavar),
  (.str (S "help"), textVal o.help),
  (.str (S "complete"), listOrNone o.complete),
  (.str (S "nosort"), .bool o.nosort),
  (.str (S "groups"), listOrNone (o.groups.map (fun g => g.map .str))),
  (.str (S "optional_arg"), .bool o.optionalArg),
  (.str (S "repeatable"), extendedVal o.repeatable),
  (.str (S "final"), .bool o.final),
  (.str (S "hidden"), .bool o.hidden),
  (.str (S "when"), textVal o.when_),
  (.str (S "capture"), textVal o.capture)]

/-- The entries of `_positional_to_definition`, `completion_validator.py` 54-64. -/
def positionalEntries (p : Pos) : List (Key × Val) := [
  (.str (S "number"), .int p.number),
  (.str (S "metavar"), textVal p.metavar),
  (.str (S "help"), textVal p.help),
  (.str (S "repeatable"), .bool p.repeatable),
  (.str (S "complete"), .list p.complete),
  (.str (S "nosort"), .bool p.nosort),
  (.str (S "when"), textVal p.when_),
  (.str (S "capture"), textVal p.capture)]

/-- The entries of `_commandline_to_definition`, `completion_validator.py` 67-83; `path` is `get_command_path()`
(`cli.py` 364-371). -/
def commandEntries (path : Str) (d : CmdData) : List (Key × Val) := [
  (.str (S "prog"), .str path),
  (.str (S "help"), textVal d.help),
  (.str (S "aliases"), .list (d.aliases.map .str)),
  (.str (S "wraps"), textVal d.wraps),
  (.str (S "abbreviate_commands"), extendedVal d.abbreviateCommands),
  (.str (S "abbreviate_options"), extendedVal d.abbreviateOptions),
  (.str (S "inherit_options"), extendedVal d.inheritOptions),
  (.str (S "options"), .list (d.options.map (fun o => .dict (optionEntries o)))),
  (.str (S "positionals"), .list (d.positionals.map (fun p => .dict (positionalEntries p))))]

mutual
/-- `_commandlines_to_definition_list`, `completion_validator.py` 86-94; `parents` are the names of the
ancestors. -/
def definitionsOf (parents : List Str) : Cmd → List Val
  | .node d _ ch => .dict (commandEntries (joinWith [' '] (parents ++ [d.prog])) d) ::
      definitionsOfList (parents ++ [d.prog]) ch
/-- The loop over the subcommands. -/
def definitionsOfList (parents : List Str) : List Cmd → List Val
  | [] => []
  | c :: cs => definitionsOf parents c ++ definitionsOfList parents cs
end

/-- `validate_commandlines`, `completion_validator.py` 97-100. -/
def validateCommandlines (env : ValEnv) (c : Cmd) : Except Err Unit := validate env (definitionsOf [] c)

end CC
