import Verif.Model.Cli
import Verif.Model.When
/-!
# Model of `crazy_complete/generation.py` (configuration) and of the parts of `config.py` it reads
-/

namespace CC

/-- The settings of `Config` (`config.py` 23-48) that `_apply_config` reads. -/
structure Config where
  abbreviateCommands : Bool := false
  abbreviateOptions : Bool := false
  repeatableOptions : Bool := false
  inheritOptions : Bool := false
  /-- `'space'`, `'equals'` or `'both'` (`set_long_option_argument_separator` accepts no other). -/
  longSep : LongSep := .both
  disabledHidden : Bool := false
  disabledFinal : Bool := false
  disabledGroups : Bool := false
  disabledRepeatable : Bool := false
  disabledWhen : Bool := false

/-- The loop body over the options in `_apply_config`, `generation.py` 71-91, assignment by
assignment. -/
def applyOpt (cfg : Config) (o : Opt) : Opt :=
  let o := if o.repeatable = .inherit then { o with repeatable := .val cfg.repeatableOptions } else o
  let o := if o.longSep = .inherit then { o with longSep := cfg.longSep } else o
  let o := if cfg.disabledHidden then { o with hidden := false } else o
  let o := if cfg.disabledFinal then { o with final := false } else o
  let o := if cfg.disabledGroups then { o with groups := some [] } else o
  let o := if cfg.disabledRepeatable then { o with repeatable := .val true } else o
  if cfg.disabledWhen then { o with when_ := none } else o

/-- The loop body over the positionals, `generation.py` 93-95. -/
def applyPos (cfg : Config) (p : Pos) : Pos :=
  if cfg.disabledWhen then { p with when_ := none } else p

/-- `_apply_config`, `generation.py` 44-95. -/
def applyConfig (cfg : Config) (d : CmdData) : CmdData :=
  let d := if d.abbreviateCommands = .inherit then { d with abbreviateCommands := .val cfg.abbreviateCommands } else d
  let d := if d.abbreviateOptions = .inherit then { d with abbreviateOptions := .val cfg.abbreviateOptions } else d
  let d := if d.inheritOptions = .inherit then { d with inheritOptions := .val cfg.inheritOptions } else d
  { d with options := d.options.map (applyOpt cfg), positionals := d.positionals.map (applyPos cfg) }

mutual
/-- `visit_commandlines` (`cli.py` 373-379) with a callback that updates the attributes of the
visited command. -/
def Cmd.mapData (f : CmdData → CmdData) : Cmd → Cmd
  | .node d s ch => .node (f d) s (Cmd.mapDataList f ch)
/-- The loop over the subcommands. -/
def Cmd.mapDataList (f : CmdData → CmdData) : List Cmd → List Cmd
  | [] => []
  | c :: cs => c.mapData f :: Cmd.mapDataList f cs
end

/-- The `when` attributes that `_add_parsed_when` parses, `generation.py` 99-123: truthy ones of
options, then of positionals. -/
def whensOf (d : CmdData) : List Str :=
  (d.options.filterMap (·.when_) ++ d.positionals.filterMap (·.when_)).filter (fun w => !w.isEmpty)

/-- `_add_parsed_when`, `generation.py` 99-123: only whether it fails is modelled (the parsed object
is a function of the string). `isRegex` is whether `re.compile` accepts a string. -/
def checkWhens (isRegex : Str → Bool) : List Str → Except Err Unit
  | [] => .ok ()
  | w :: ws => match parseWhen isRegex w with
    | .error e => .error e
    | .ok _ => checkWhens isRegex ws

/-- `enhance_commandline`, `generation.py` 126-138. `validate` stands for
`completion_validator.validate_commandlines`. -/
def enhance (isRegex : Str → Bool) (validate : Cmd → Except Err Unit) (cfg : Config) (c : Cmd) : Except Err Cmd := do
  let c ← c.copy
  let c := c.mapData (applyConfig cfg)
  checkWhens isRegex (c.all.flatMap (fun x => whensOf x.data))
  validate c
  .ok c

end CC
