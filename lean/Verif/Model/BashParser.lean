import Verif.Model.ZshQuery
import Verif.Model.Walk
import Verif.Model.Shell
/-!
# Model of the two Bash command line parsers

`bash_parser.py`, `bash_parser_v2.py` and `bash_parser_subcommand_code.py`. The generated Bash code
is modelled by what it does: a `case` statement is a search through its patterns in order, `+=` on an
array appends an entry to a log of (variable, value) pairs, and `cmd`, `POSITIONALS` and
`END_OF_OPTIONS` are parts of a state. Option strings and command names in patterns are taken
literally (simplification: version 1 leaves them unquoted, so option strings with glob characters are
not covered; for version 2 see `BashPatterns`).
-/

namespace CC

/-- `_OPT_ISSET`, `bash_parser.py` 50 and `bash_parser_v2.py` 121. -/
def optIsSet : Str := S "_OPT_ISSET_"

/-- An option as the generated code knows it: its long and old-style strings with their abbreviations,
its short strings, whether it takes an argument, and its variable. -/
structure BOpt where
  longs : List Str
  shorts : List Str
  kind : ArgKind
  var : Str
  deriving DecidableEq, Repr

/-- The cases of one command: its path, whether its options are inherited (`*` after the path), and
its options. -/
structure Block where
  path : Str
  inherits : Bool
  opts : List BOpt
  deriving DecidableEq, Repr

/-- `case "$cmd" in path)` or `path*)`. -/
def Block.active (cmd : Str) (b : Block) : Bool :=
  if b.inherits then startsWith cmd b.path else decide (cmd = b.path)

/-- What a word does: entries for the option arrays and whether the next word is used up. -/
structure BEffect where
  log : List (Str × Str) := []
  skip : Bool := false
  deriving DecidableEq, Repr

/-! ## Version 1 -/

/-- The cases of one option, `_make_long_option_case`, `bash_parser.py` 108-130: `none` if no pattern
matches. `next` is `${words_dequoted[argi+1]}`. -/
def v1LongCase (arg next : Str) (o : BOpt) : Option BEffect :=
  if o.longs.contains arg then
    some (match o.kind with
      | .required => { log := [(o.var, next)], skip := true }
      | _ => { log := [(o.var, optIsSet)] })
  else if o.kind ≠ .flag && o.longs.any (fun l => startsWith arg (l ++ ['='])) then
    some { log := [(o.var, afterEq arg)] }
  else none

/-- `LONG_OPTION_CASES`, `bash_parser.py` 61-74: the blocks in order; a match ends with `continue`. -/
def v1Long (active : List Block) (arg next : Str) : Option BEffect :=
  active.findSome? (fun b => b.opts.findSome? (v1LongCase arg next))

/-- The short option cases for one letter, `bash_parser.py` 76-83 and 133-154: the blocks in order. A
flag only appends to its variable and the next block is looked at; an option with an argument ends the
word (`continue 2`). The flag of the result says whether the word is finished. -/
def v1Letter (c : Char) (trailing next : Str) : List Block → BEffect × Bool
  | [] => ({}, false)
  | b :: bs =>
    match b.opts.find? (fun o => o.shorts.contains ['-', c]) with
    | none => v1Letter c trailing next bs
    | some o =>
      match o.kind with
      | .flag =>
        let r := v1Letter c trailing next bs
        (⟨(o.var, optIsSet) :: r.1.log, r.1.skip⟩, r.2)
      | .optional => (⟨[(o.var, if trailing ≠ [] then trailing else optIsSet)], false⟩, true)
      | .required =>
        if trailing ≠ [] then (⟨[(o.var, trailing)], false⟩, true) else (⟨[(o.var, next)], true⟩, true)

/-- The loop over the letters, `bash_parser.py` 31-35. -/
def v1Cluster (active : List Block) (next : Str) : Str → BEffect
  | [] => {}
  | c :: trailing =>
    let r := v1Letter c trailing next active
    if r.2 then r.1
    else
      let e := v1Cluster active next trailing
      ⟨r.1.log ++ e.log, e.skip⟩

/-- The branch for options, `bash_parser.py` 29-35. -/
def v1Option (blocks : List Block) (cmd arg next : Str) : BEffect :=
  let active := blocks.filter (Block.active cmd)
  match v1Long active arg next with
  | some e => e
  | none => v1Cluster active next arg.tail

/-! ## Version 2 -/

/-- `__find_option`, `bash_parser_v2.py` 124-168: the first option in the first block for the command.
Simplification: with only one command the code omits the check of the command (128-129, 146-147), which then is
always met because `cmd` stays `root`. -/
def findBOpt (blocks : List Block) (cmd name : Str) : Option BOpt :=
  (blocks.filter (Block.active cmd)).findSome? (fun b => b.opts.find? (fun o => o.shorts.contains name || o.longs.contains name))

/-- The parts of the code chosen by `#ifdef`. -/
structure Parts where
  long : Bool
  short : Bool
  old : Bool
  shortOptionals : Bool
  positionals : Bool

/-- An option found as a word of its own, `bash_parser_v2.py` 48-53 and 66-70. -/
def v2Word (o : BOpt) (next : Str) : BEffect :=
  if o.kind = .required then { log := [(o.var, next)], skip := true } else { log := [(o.var, optIsSet)] }

/-- The loop over the letters, `bash_parser_v2.py` 77-100. -/
def v2Cluster (find : Str → Option BOpt) (shortOptionals : Bool) (next : Str) : Str → BEffect
  | [] => {}
  | c :: trailing =>
    match find ['-', c] with
    | none => v2Cluster find shortOptionals next trailing
    | some o =>
      if o.kind = .required then
        if trailing ≠ [] then { log := [(o.var, trailing)] } else { log := [(o.var, next)], skip := true }
      else if shortOptionals && decide (o.kind = .optional) then
        { log := [(o.var, if trailing ≠ [] then trailing else optIsSet)] }
      else
        let e := v2Cluster find shortOptionals next trailing
        ⟨(o.var, optIsSet) :: e.log, e.skip⟩

/-- The old-style part, `bash_parser_v2.py` 58-74. -/
def v2Old (find : Str → Option BOpt) (arg next : Str) : Option BEffect :=
  match (if arg.contains '=' then find (beforeEq arg) else none) with
  | some o => some { log := [(o.var, afterEq arg)] }
  | none => (find arg).map (fun o => v2Word o next)

/-- The branches for options, `bash_parser_v2.py` 42-102. -/
def v2Option (p : Parts) (blocks : List Block) (cmd arg next : Str) : BEffect :=
  let find := findBOpt blocks cmd
  if startsWith arg ['-', '-'] then
    if p.long then
      if arg.contains '=' then
        match find (beforeEq arg) with
        | some o => { log := [(o.var, afterEq arg)] }
        | none => {}
      else
        match find arg with
        | some o => v2Word o next
        | none => {}
    else {}
  else
    match (if p.old then v2Old find arg next else none) with
    | some e => e
    | none => if p.short then v2Cluster find p.shortOptionals next arg.tail else {}

/-! ## Subcommands -/

/-- One case of the subcommand switch: the path of a command, the number of positionals at which its
subcommand is named, and the other names of its subcommands. -/
structure SwitchCase where
  path : Str
  num : Nat
  names : List (List Str × Str)
  deriving DecidableEq, Repr

/-- `_make_switch_case`, `bash_parser_subcommand_code.py` 66-85: a known other name is replaced by the
name of the command, any other word is appended as it is. -/
def switchName (names : List (List Str × Str)) (arg : Str) : Str :=
  match names.find? (fun e => e.1.contains arg) with
  | some e => e.2
  | none => arg

/-- The generated `case "$cmd|${#POSITIONALS[@]}"`, `bash_parser_subcommand_code.py` 55-63. -/
def switchCmd (cases : List SwitchCase) (cmd : Str) (count : Nat) (arg : Str) : Str :=
  match cases.find? (fun c => decide (cmd ++ '|' :: natStr count = c.path ++ '|' :: natStr c.num)) with
  | some c => cmd ++ ':' :: switchName c.names arg
  | none => cmd

/-! ## The loop -/

/-- The state of the parser. -/
structure BState where
  cmd : Str := S "root"
  positionals : List Str := []
  log : List (Str × Str) := []
  endOfOptions : Bool := false
  deriving DecidableEq, Repr

/-- `-?*` -/
def isOptionWord : Str → Bool
  | '-' :: _ :: _ => true
  | _ => false

/-- The loops, `bash_parser.py` 21-48 and `bash_parser_v2.py` 32-119. The words before the cursor are the
list, `cur` is the word at the cursor and `post` are the words after it. `option` is the branch for
options. -/
def bashLoop (option : Str → Str → Str → BEffect) (cases : List SwitchCase) (cur : Str) (post : List Str) :
    BState → Bool → List Str → BState
  | s, true, [] => s
  | s, false, [] => if isOptionWord cur then s else { s with positionals := s.positionals ++ [cur] }
  | s, true, _ :: ws => bashLoop option cases cur post s false ws
  | s, false, w :: ws =>
    if w = ['-', '-'] then
      { s with endOfOptions := true, positionals := s.positionals ++ ws ++ cur :: post }
    else if isOptionWord w then
      let e := option s.cmd w (ws.headD cur)
      bashLoop option cases cur post { s with log := s.log ++ e.log } e.skip ws
    else
      bashLoop option cases cur post
        { s with positionals := s.positionals ++ [w], cmd := switchCmd cases s.cmd (s.positionals.length + 1) w }
        false ws

/-- The parser of version 1, `bash_parser.py` 15-48. -/
def bashParseV1 (blocks : List Block) (cases : List SwitchCase) (words : List Str) (cur : Str) (post : List Str) : BState :=
  bashLoop (v1Option blocks) cases cur post {} false words

/-- The parser of version 2, `bash_parser_v2.py` 17-119. Without the part for positionals, other words are ignored. -/
def bashParseV2 (p : Parts) (blocks : List Block) (cases : List SwitchCase) (words : List Str) (cur : Str)
    (post : List Str) : BState :=
  let s := bashLoop (v2Option p blocks) (if p.positionals then cases else []) cur post {} false words
  { s with positionals := if p.positionals then s.positionals else [] }

/-! ## Generating the cases from a command tree -/

/-- `get_option_abbreviator`, `utils.py` 157-170, applied to strings of an option. -/
def optionNames (parents : List Cmd) (c : Cmd) (strings : List Str) : Except Err (List Str) :=
  if c.data.abbreviateOptions = .val true then
    let words := (getOptions parents c (decide (c.data.inheritOptions = .val true)) false).flatMap
      (fun o => o.longStrings ++ o.oldStrings)
    if words.all optionWordOk then getManyAbbreviations 3 words strings else .error .valueError
  else .ok strings

/-- `make_option_variable_name`, `bash_utils.py` 9-23, with the prefix of `bash.py`. -/
def optionVariableName (pre : Str) (o : Opt) : Str :=
  match o.longStrings, o.oldStrings, o.shortStrings with
  | l :: _, _, _ => pre ++ makeIdentifier (l.dropWhile (· == '-'))
  | [], l :: _, _ => pre ++ makeIdentifier (l.dropWhile (· == '-'))
  | [], [], s :: _ => pre ++ (s.drop 1).take 1
  | [], [], [] => pre

/-- `VariableManager.capture_variable`, `bash_utils.py` 40-46: the variable of an option. -/
def captureVariable (o : Opt) : Str := match o.capture with
  | some v => v
  | none => optionVariableName (S "OPT_") o

/-- `get_defined_option_types`, `utils.py` 193-254, the parts that `bash_parser_v2.py` 177-188 uses. -/
def bashParts (root : Cmd) : Parts :=
  let options := root.all.flatMap (fun c => c.data.options)
  { long := options.any (fun o => !o.longStrings.isEmpty)
    short := options.any (fun o => !o.shortStrings.isEmpty)
    old := options.any (fun o => !o.oldStrings.isEmpty)
    shortOptionals := options.any (fun o => !o.shortStrings.isEmpty && o.hasOptionalArg)
    positionals := root.all.any (fun c => !c.data.positionals.isEmpty || (c.sub.isSome && !c.children.isEmpty)) }

/-- The case of an option, `_generate_option_cases`, `bash_parser.py` 157-182 and
`bash_parser_v2.py` 206-232. -/
def bashOption (parents : List Cmd) (c : Cmd) (o : Opt) : Except Err BOpt := do
  let l ← optionNames parents c o.longStrings
  let old ← optionNames parents c o.oldStrings
  .ok { longs := l ++ old, shorts := o.shortStrings, kind := o.kind, var := captureVariable o }

/-- Map with exceptions. -/
def mapE {α β} (f : α → Except Err β) : List α → Except Err (List β)
  | [] => .ok []
  | x :: xs => do
    let y ← f x
    let ys ← mapE f xs
    .ok (y :: ys)

/-- `get_subcommand_path`, `bash_parser_subcommand_code.py` 14-18. -/
def subcommandPath (parents : List Cmd) (c : Cmd) : Str :=
  joinWith [':'] (S "root" :: ((parents ++ [c]).drop 1).map (fun x => x.data.prog))

/-- The block of a command, `bash_parser.py` 61-65 and `bash_parser_v2.py` 141-157. `inherit_options`
is read after `apply_config`, so it is a boolean. -/
def bashBlock (e : List Cmd × Cmd) : Except Err Block := do
  let os ← mapE (bashOption e.1 e.2) (getOptions e.1 e.2 false false)
  .ok { path := subcommandPath e.1 e.2, inherits := decide (e.2.data.inheritOptions = .val true), opts := os }

/-- All blocks, deepest commands first: `bash_parser.py` 56-61, `bash_parser_v2.py` 124-132. -/
def bashBlocks (root : Cmd) : Except Err (List Block) := mapE bashBlock (root.walk []).reverse

/-- The other names of a subcommand, `bash_parser_subcommand_code.py` 69-74; a subcommand without other
names has no entry. -/
def otherNames (p c : Cmd) : List Str := (variations p c).erase c.data.prog

/-- The cases of the subcommand switch, `bash_parser_subcommand_code.py` 40-50. -/
def switchCases (root : Cmd) : List SwitchCase :=
  (root.walk []).filterMap (fun e =>
    match e.2.sub with
    | none => none
    | some n => some
        { path := subcommandPath e.1 e.2, num := positionalNum e.1 n
          names := (e.2.children.filter (fun c => !(otherNames e.2 c).isEmpty)).map
            (fun c => (otherNames e.2 c, c.data.prog)) })

end CC
