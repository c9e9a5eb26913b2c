import Verif.Model.Cli
import Verif.Model.Compat
import Verif.Model.StrUtils
/-!
# Model of `crazy_complete/dictionary_source.py`

`CrazyTypeError` is a `CrazyError`. Errors that Python raises for a non-dictionary where a
dictionary is needed (`AttributeError`, `TypeError`) are `Err.crash`. Simplification: the integers
0 and 1 and the floats 0.0 and 1.0, which Python's `obj in (True, False, INHERIT)` lets pass as an
ExtendedBool, are rejected.
-/

namespace CC

/-- Python `s.split()`: the words between runs of whitespace. `cur` is the current word reversed. -/
def splitWsGo : Str → Str → List Str
  | [], [] => []
  | cur, [] => [cur.reverse]
  | cur, c :: cs =>
    if pyIsSpace c then (if cur.isEmpty then splitWsGo [] cs else cur.reverse :: splitWsGo [] cs)
    else splitWsGo (c :: cur) cs

/-- Python `s.split()`. -/
def splitWs (s : Str) : List Str := splitWsGo [] s

/-! ## Reading attributes -/

/-- The test of `_validate_keys`, `dictionary_source.py` 19. -/
def keyAllowed (allowed : List Str) (e : Key × Val) : Bool :=
  match e.1 with | .str k => allowed.contains k | _ => false

/-- `_validate_keys`, `dictionary_source.py` 17-20. -/
def validateKeys (d : List (Key × Val)) (allowed : List Str) : Except Err Unit :=
  if d.all (keyAllowed allowed) then .ok ()
  else .error .crazyError

/-- An attribute of type `str|None`, default None. -/
def readStr? (d : List (Key × Val)) (k : Str) : Except Err (Option Str) :=
  match getKey d k with
  | none => .ok none
  | some .none => .ok none
  | some (.str s) => .ok (some s)
  | some _ => .error .crazyError

/-- An attribute of type `bool`, default False. -/
def readBool (d : List (Key × Val)) (k : Str) : Except Err Bool :=
  match getKey d k with
  | none => .ok false
  | some (.bool b) => .ok b
  | some _ => .error .crazyError

/-- An attribute of type ExtendedBool, default INHERIT. -/
def readExt (d : List (Key × Val)) (k : Str) : Except Err ExtBool :=
  match getKey d k with
  | none => .ok .inherit
  | some (.bool b) => .ok (.val b)
  | some (.str s) => if s = S "INHERIT" then .ok .inherit else .error .crazyError
  | some _ => .error .crazyError

/-- An attribute of type `list|None`, default None. -/
def readList? (d : List (Key × Val)) (k : Str) : Except Err (Option (List Val)) :=
  match getKey d k with
  | none => .ok none
  | some .none => .ok none
  | some (.list l) => .ok (some l)
  | some _ => .error .crazyError

/-- A list whose elements must be strings. -/
def asStrs : List Val → Except Err (List Str)
  | [] => .ok []
  | .str s :: vs => do .ok (s :: (← asStrs vs))
  | _ :: _ => .error .crazyError

/-- A list of strings or None, default None. -/
def readStrs? (d : List (Key × Val)) (k : Str) : Except Err (Option (List Str)) := do
  match ← readList? d k with
  | none => .ok none
  | some l => .ok (some (← asStrs l))

/-- The values of `long_opt_arg_sep`, `cli.py` 726-727. -/
def readSep (d : List (Key × Val)) (k : Str) : Except Err LongSep :=
  match getKey d k with
  | none => .ok .inherit
  | some (.str s) =>
    if s = S "INHERIT" then .ok .inherit
    else if s = S "space" then .ok .space
    else if s = S "equals" then .ok .equals
    else if s = S "both" then .ok .both
    else .error .crazyError
  | some _ => .error .crazyError

/-- The number of a positional: an int (a bool is an int), `cli.py` 514 and 526. -/
def readNumber (d : List (Key × Val)) (k : Str) : Except Err Nat :=
  match getKey d k with
  | some (.int i) => .ok i.toNat
  | some (.bool b) => .ok (if b then 1 else 0)
  | _ => .error .crazyError

/-- The entries of a dictionary: `.keys()` and `.get()` of anything else fail. -/
def asDict : Val → Except Err (List (Key × Val))
  | .dict d => .ok d
  | _ => .error .crash

/-- The option part of `dictionary_to_commandline`, `dictionary_source.py` 48-69, with
`Option.__init__`. -/
def readOption (v : Val) : Except Err Opt := do
  let d ← asDict v
  validateKeys d [S "option_strings", S "metavar", S "help", S "optional_arg", S "groups",
    S "repeatable", S "final", S "hidden", S "complete", S "nosort", S "when", S "capture",
    S "long_opt_arg_sep"]
  let strings ← readStrs? d (S "option_strings")
  let metavar ← readStr? d (S "metavar")
  let help ← readStr? d (S "help")
  let complete ← readList? d (S "complete")
  let groups ← readStrs? d (S "groups")
  let optionalArg ← readBool d (S "optional_arg")
  let repeatable ← readExt d (S "repeatable")
  let final ← readBool d (S "final")
  let hidden ← readBool d (S "hidden")
  let nosort ← readBool d (S "nosort")
  let when_ ← readStr? d (S "when")
  let capture ← readStr? d (S "capture")
  let longSep ← readSep d (S "long_opt_arg_sep")
  Opt.init {
    strings := strings.getD [], metavar := metavar, help := help, complete := complete,
    nosort := nosort, groups := groups, optionalArg := optionalArg, repeatable := repeatable,
    final := final, hidden := hidden, when_ := when_, capture := capture, longSep := longSep }

/-- The positional part of `dictionary_to_commandline`, `dictionary_source.py` 71-84, with
`Positional.__init__`. -/
def readPositional (v : Val) : Except Err Pos := do
  let d ← asDict v
  validateKeys d [S "number", S "metavar", S "help", S "repeatable", S "complete", S "nosort",
    S "when", S "capture"]
  let number ← readNumber d (S "number")
  let metavar ← readStr? d (S "metavar")
  let help ← readStr? d (S "help")
  let complete ← readList? d (S "complete")
  let repeatable ← readBool d (S "repeatable")
  let nosort ← readBool d (S "nosort")
  let when_ ← readStr? d (S "when")
  let capture ← readStr? d (S "capture")
  Pos.init { number, metavar, help, complete := complete.getD [], nosort, repeatable, when_, capture }

/-- Run a reader over a list. -/
def readAll {α} (f : Val → Except Err α) : List Val → Except Err (List α)
  | [] => .ok []
  | v :: vs => do
    let x ← f v
    .ok (x :: (← readAll f vs))

/-- `options` and `positionals`, `dictionary_source.py` 31-37: a list, default empty. -/
def readItems (d : List (Key × Val)) (k : Str) : Except Err (List Val) :=
  match getKey d k with
  | none => .ok []
  | some (.list l) => .ok l
  | some _ => .error .crazyError

/-- `dictionary_to_commandline`, `dictionary_source.py` 23-86, with the non-empty name given.
(Simplification: the attributes of the command are checked after those of its options.) -/
def dictToCmd (d : List (Key × Val)) (prog : Str) : Except Err CmdData := do
  validateKeys d [S "prog", S "help", S "aliases", S "wraps", S "abbreviate_commands",
    S "abbreviate_options", S "inherit_options", S "options", S "positionals"]
  let os ← readItems d (S "options")
  let ps ← readItems d (S "positionals")
  let help ← readStr? d (S "help")
  let aliases ← readStrs? d (S "aliases")
  let wraps ← readStr? d (S "wraps")
  let abbreviateCommands ← readExt d (S "abbreviate_commands")
  let abbreviateOptions ← readExt d (S "abbreviate_options")
  let inheritOptions ← readExt d (S "inherit_options")
  let options ← readAll readOption os
  let positionals ← readAll readPositional ps
  let c : CmdData := {
    prog := prog, help := help, aliases := aliases.getD [], wraps := wraps,
    abbreviateCommands := abbreviateCommands, abbreviateOptions := abbreviateOptions,
    inheritOptions := inheritOptions, options := options, positionals := positionals }
  if c.check then .ok c else .error .crazyError

/-! ## Building the tree -/

/-- Does the string contain the four letters `prog`? -/
def hasProgText : Str → Bool
  | [] => false
  | c :: cs => startsWith (c :: cs) (S "prog") || hasProgText cs

/-- `_check_prog_in_dictionary`, `dictionary_source.py` 89-99, and the entries and words of the
program name. `'prog' not in dictionary` also works on lists and strings. -/
def checkProg : Val → Except Err (List (Key × Val) × List Str)
  | .dict d =>
    match getKey d (S "prog") with
    | some (.str p) => if validProg p then .ok (d, splitWs p) else .error .crazyError
    | _ => .error .crazyError
  | .list l => if l.any (fun v => decide (v = .str (S "prog"))) then .error .crash else .error .crazyError
  | .str s => if hasProgText s then .error .crash else .error .crazyError
  | _ => .error .crash

/-- Replace the first subcommand with the given name. `none`: there is no such subcommand. -/
def updateSub (n : Str) (f : Cmd → Except Err Cmd) : List Cmd → Option (Except Err (List Cmd))
  | [] => none
  | c :: cs =>
    if c.data.prog = n then some (do .ok ((← f c) :: cs))
    else (updateSub n f cs).map (fun r => do .ok (c :: (← r)))

/-- `_get_commandline_by_path`, `dictionary_source.py` 102-115, followed by an update of the command
found. -/
def updateAt : Cmd → List Str → (Cmd → Except Err Cmd) → Except Err Cmd
  | c, [], f => f c
  | .node d s ch, n :: ns, f =>
    if s.isNone then .error .crazyError
    else match updateSub n (fun c => updateAt c ns f) ch with
      | none => .error .crazyError
      | some r => do .ok (.node d s (← r))

/-- `dictionaries_to_commandline`, 176-184: create the subcommands option if missing and add the new
command. -/
def attach (new : CmdData) : Cmd → Except Err Cmd
  | .node d s ch => do
    let ch' ← addSub ch (.node new none [])
    .ok (.node d (some (s.getD (highestNumber d.positionals + 1))) ch')

/-- The loop of `dictionaries_to_commandline`, `dictionary_source.py` 170-186. -/
def importGo : Cmd → List Val → Except Err Cmd
  | root, [] => .ok root
  | root, v :: vs => do
    let (d, words) ← checkProg v
    let path := words.dropLast
    let _ ← updateAt root path .ok
    let new ← dictToCmd d (words.getLastD [])
    let root ← updateAt root path (attach new)
    importGo root vs

/-- The end of `dictionaries_to_commandline`, `dictionary_source.py` 188-198. -/
def importEnd : Cmd → Except Err Cmd
  | .node _ none _ => .error .crazyError
  | .node _ (some _) [c] => .ok c
  | .node _ (some _) _ => .error .crazyError

/-- The root object, `dictionary_source.py` 168. -/
def importRoot : Cmd := .node { prog := S "root" } none []

/-! ## Defines -/

mutual
/-- `replace_defines`, `dictionary_source.py` 145-152. -/
def replaceDefines (defs : List (Key × Val)) : Val → Val
  | .str s => (getKey defs s).getD (.str s)
  | .list l => .list (replaceDefinesList defs l)
  | .dict d => .dict (replaceDefinesDict defs d)
  | v => v
/-- The list case. -/
def replaceDefinesList (defs : List (Key × Val)) : List Val → List Val
  | [] => []
  | v :: vs => replaceDefines defs v :: replaceDefinesList defs vs
/-- The dictionary case. -/
def replaceDefinesDict (defs : List (Key × Val)) : List (Key × Val) → List (Key × Val)
  | [] => []
  | (k, v) :: r => (k, replaceDefines defs v) :: replaceDefinesDict defs r
end

/-- A document is the defines document, `dictionary_source.py` 133-136. -/
def isDefines : Val → Option (List (Key × Val))
  | .dict d => if getKey d (S "prog") = some (.str (S "%defines%")) then some d else none
  | _ => none

/-- Search and remove the first defines document, `dictionary_source.py` 131-143. (`remove` takes
the first equal document, which is the one found.) -/
def takeDefines : List Val → Option (List (Key × Val) × List Val)
  | [] => none
  | v :: vs => match isDefines v with
    | some d => some (d, vs)
    | none => (takeDefines vs).map (fun r => (r.1, v :: r.2))

/-- `replace_defines_in_documents`, `dictionary_source.py` 118-159. -/
def replaceDefinesInDocuments (docs : List Val) : List Val :=
  match takeDefines docs with
  | none => docs
  | some (d, rest) => rest.map (replaceDefines (delKey d (S "prog")))

/-- `dictionaries_to_commandline`, `dictionary_source.py` 162-198. -/
def dictsToCmd (docs : List Val) : Except Err Cmd := do
  importEnd (← importGo importRoot ((replaceDefinesInDocuments docs).map fixCommandline))

/-! ## Export -/

/-- An optional entry. -/
def entry? (k : Str) (v : Option Val) : List (Key × Val) := match v with
  | none => []
  | some v => [(.str k, v)]

/-- An attribute that is exported unless it is INHERIT. -/
def extVal : ExtBool → Option Val
  | .inherit => none
  | .val b => some (.bool b)

/-- A boolean that is exported only if it is True. -/
def trueVal (b : Bool) : Option Val := if b then some (.bool true) else none

/-- A list that is exported only if it is not empty. -/
def listVal (l : Option (List Val)) : Option Val := match l with
  | some (v :: vs) => some (.list (v :: vs))
  | _ => none

/-- `long_opt_arg_sep` as a string. -/
def sepVal : LongSep → Option Val
  | .inherit => none
  | .space => some (.str (S "space"))
  | .equals => some (.str (S "equals"))
  | .both => some (.str (S "both"))

/-- `option_to_dictionary`, `dictionary_source.py` 201-242. -/
def optionToDict (o : Opt) : Val := .dict (
  [(.str (S "option_strings"), .list (o.strings.map .str))] ++
  entry? (S "metavar") (o.metavar.map .str) ++
  entry? (S "help") (o.help.map .str) ++
  entry? (S "optional_arg") (trueVal o.optionalArg) ++
  entry? (S "groups") (o.groups.map (fun g => .list (g.map .str))) ++
  entry? (S "repeatable") (extVal o.repeatable) ++
  entry? (S "final") (trueVal o.final) ++
  entry? (S "hidden") (trueVal o.hidden) ++
  entry? (S "complete") (listVal o.complete) ++
  entry? (S "nosort") (trueVal o.nosort) ++
  entry? (S "when") (o.when_.map .str) ++
  entry? (S "capture") (o.capture.map .str) ++
  entry? (S "long_opt_arg_sep") (sepVal o.longSep))

/-- `positional_to_dictionary`, `dictionary_source.py` 245-273. -/
def positionalToDict (p : Pos) : Val := .dict (
  [(.str (S "number"), .int p.number)] ++
  entry? (S "metavar") (p.metavar.map .str) ++
  entry? (S "help") (p.help.map .str) ++
  entry? (S "repeatable") (trueVal p.repeatable) ++
  entry? (S "complete") (listVal (some p.complete)) ++
  entry? (S "nosort") (trueVal p.nosort) ++
  entry? (S "when") (p.when_.map .str) ++
  entry? (S "capture") (p.capture.map .str))

/-- `commandline_to_dictionary`, `dictionary_source.py` 276-313, with the command path. -/
def cmdToDict (path : Str) (d : CmdData) : Val := .dict (
  [(.str (S "prog"), .str path)] ++
  entry? (S "aliases") (listVal (some (d.aliases.map .str))) ++
  entry? (S "help") (d.help.map .str) ++
  entry? (S "wraps") (d.wraps.map .str) ++
  entry? (S "abbreviate_commands") (extVal d.abbreviateCommands) ++
  entry? (S "abbreviate_options") (extVal d.abbreviateOptions) ++
  entry? (S "inherit_options") (extVal d.inheritOptions) ++
  entry? (S "options") (listVal (some (d.options.map optionToDict))) ++
  entry? (S "positionals") (listVal (some (d.positionals.map positionalToDict))))

mutual
/-- `commandline_to_dictionaries`, `dictionary_source.py` 316-324; `parents` are the names of the
ancestors. -/
def cmdToDicts (parents : List Str) : Cmd → List Val
  | .node d _ ch => cmdToDict (joinWith [' '] (parents ++ [d.prog])) d :: cmdsToDicts (parents ++ [d.prog]) ch
/-- The loop over the subcommands. -/
def cmdsToDicts (parents : List Str) : List Cmd → List Val
  | [] => []
  | c :: cs => cmdToDicts parents c ++ cmdsToDicts parents cs
end

end CC
