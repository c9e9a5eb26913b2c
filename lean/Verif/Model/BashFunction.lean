import Verif.Model.BashParser
import Verif.Model.Algo
/-!
# Model of the Bash completion functions

`bash.py` (`BashCompletionGenerator`), `bash_option_completion.py`, `bash_positionals_completion.py` and
`is_worth_a_function` of `utils.py`. The generated code is data (statements and clauses) with a meaning given by
functions that say what Bash does. Simplifications: option strings, command names and letters in patterns are
taken literally (for `make_pattern` see `BashPatterns`; letters that are special in brackets are not covered);
the code of a completer is a text that is recorded when it runs, and does not return from the function; a
condition (`when`) is a text with a status.
-/

namespace CC

/-! ## `__complete_option` -/

/-- An option with an argument as the code knows it: all its strings with abbreviations, whether the argument
is optional, its condition, and the code of its completer. -/
structure ArgOpt where
  strings : List Str
  optional : Bool
  cond : Option Str
  code : Str
  deriving DecidableEq

/-- `get_all_option_strings`, `bash_option_completion.py` 28-38, with `complete_option` of `bash.py` 44-51. -/
def argOpt (code : Opt → Str) (parents : List Cmd) (c : Cmd) (o : Opt) : Except Err ArgOpt := do
  let l ← optionNames parents c o.longStrings
  let old ← optionNames parents c o.oldStrings
  .ok { strings := o.shortStrings ++ l ++ old, optional := o.hasOptionalArg, cond := o.when_, code := code o }

/-- A statement of `__complete_option`. -/
inductive MStmt where
  /-- `case "$opt" in strings) if cond; then code; return 0; fi;; esac` -/
  | ifCase (strings : List Str) (cond code : Str)
  /-- `case "$opt" in strings) code; return 0;; ... esac` -/
  | cases (clauses : List (List Str × Str))
  /-- `[[ "$mode" == WITH_OPTIONAL ]] || return 1` -/
  | mode
  /-- `case "$opt" in strings) code;; ... *) ret=1;; esac` -/
  | casesRet (clauses : List (List Str × Str))
  /-- `(( ! ret )) && return 0; [[ "$mode" == WITH_OPTIONAL ]] || return 1; ret=0` -/
  | checkRet
  deriving DecidableEq

/-- The clauses of options grouped by their code, `bash_option_completion.py` 67-79 and 143-157. -/
def groupedClauses (os : List ArgOpt) : List (List Str × Str) :=
  (groupBy ArgOpt.code os).map (fun g => (g.2.flatMap ArgOpt.strings, g.1))

/-- `_add_options_with_when` for one option, `bash_option_completion.py` 81-98. -/
def whenStmt (o : ArgOpt) : MStmt := .ifCase o.strings (o.cond.getD []) o.code

/-- `MasterCompletionFunction._add_options`, lines 62-65; an empty group gives no statement (69). -/
def addOptionsWhen (os : List ArgOpt) : List MStmt :=
  let p := partitionBy (fun o => o.cond.isSome) os
  p.1.map whenStmt ++ (if p.2.isEmpty then [] else [.cases (groupedClauses p.2)])

/-- `MasterCompletionFunction.__init__`, lines 47-60. -/
def masterWhen (os : List ArgOpt) : List MStmt :=
  let optional := os.filter (fun o => o.optional)
  let required := os.filter (fun o => !o.optional)
  addOptionsWhen required ++ (if optional.isEmpty then [] else .mode :: addOptionsWhen optional)

/-- `MasterCompletionFunctionNoWhen._add_options`, lines 143-157. -/
def addOptionsNoWhen (os : List ArgOpt) : List MStmt :=
  if os.isEmpty then [] else [.casesRet (groupedClauses os)]

/-- `MasterCompletionFunctionNoWhen.__init__`, lines 120-136. -/
def masterNoWhen (os : List ArgOpt) : List MStmt :=
  let optional := os.filter (fun o => o.optional)
  let required := os.filter (fun o => !o.optional)
  addOptionsNoWhen required ++ (if optional.isEmpty then [] else .checkRet :: addOptionsNoWhen optional)

/-- `__complete_option`, `_get_master_completion_obj`, lines 176-182: which of the two functions, and its body. -/
def masterOf (os : List ArgOpt) : Bool × List MStmt :=
  if os.any (fun o => o.cond.isSome) then (true, masterWhen os) else (false, masterNoWhen os)

/-- The clause of a `case "$opt"` that matches. -/
def clauseOf (opt : Str) (clauses : List (List Str × Str)) : Option Str :=
  (clauses.find? (fun cl => cl.1.contains opt)).map (·.2)

/-- What `__complete_option` does: the codes that run, and whether it returns 0. `withOptional` says whether
the third argument is `WITH_OPTIONAL`. The function with conditions ends with `return 1` (line 110), the other one
with `return $ret` (line 169); `ret` is true for 0. -/
def runMaster (holds : Str → Bool) (opt : Str) (withOptional : Bool) : Bool → List MStmt → Bool → List Str × Bool
  | hasWhen, [], ret => ([], if hasWhen then false else ret)
  | hasWhen, .ifCase ss cond code :: r, ret =>
    if ss.contains opt && holds cond then ([code], true) else runMaster holds opt withOptional hasWhen r ret
  | hasWhen, .cases cls :: r, ret =>
    match clauseOf opt cls with
    | some code => ([code], true)
    | none => runMaster holds opt withOptional hasWhen r ret
  | hasWhen, .mode :: r, ret => if withOptional then runMaster holds opt withOptional hasWhen r ret else ([], false)
  | hasWhen, .casesRet cls :: r, ret =>
    match clauseOf opt cls with
    | some code => let q := runMaster holds opt withOptional hasWhen r ret; (code :: q.1, q.2)
    | none => runMaster holds opt withOptional hasWhen r false
  | hasWhen, .checkRet :: r, ret =>
    if ret then ([], true) else if withOptional then runMaster holds opt withOptional hasWhen r true else ([], false)

/-- `__complete_option OPT CUR MODE`. -/
def completeOption (holds : Str → Bool) (os : List ArgOpt) (opt : Str) (withOptional : Bool) : List Str × Bool :=
  runMaster holds opt withOptional (masterOf os).1 (masterOf os).2 true

/-! ## The dispatcher -/

/-- `_Info`, `bash_option_completion.py` 185-246. -/
structure DispatchInfo where
  shortRequired : Bool
  shortOptional : Bool
  longRequired : Bool
  longOptional : Bool
  oldRequired : Bool
  oldOptional : Bool
  oldStrings : List Str
  noArgs : Str
  requiredArgs : Str
  optionalArgs : Str

/-- The letters of the short strings of some options, lines 213-214. -/
def shortLetters (os : List Opt) : Str := os.flatMap (fun o => o.shortStrings.flatMap (fun s => s.dropWhile (· == '-')))

/-- `_Info.__init__`, lines 190-226, and `_collect_options_info`, 228-246. `own` are the options with arguments
of the command, `all` its options and, if it has `inherit_options`, those of its parents. -/
def dispatchInfo (parents : List Cmd) (c : Cmd) : Except Err DispatchInfo := do
  let own := getOptions parents c false true
  let all := getOptions parents c (decide (c.data.inheritOptions = .val true)) false
  let old ← optionNames parents c (all.flatMap (fun o => o.oldStrings))
  .ok { shortRequired := own.any (fun o => !o.shortStrings.isEmpty && !o.hasOptionalArg && o.hasRequiredArg)
        shortOptional := own.any (fun o => !o.shortStrings.isEmpty && o.hasOptionalArg)
        longRequired := own.any (fun o => !o.longStrings.isEmpty && !o.hasOptionalArg && o.hasRequiredArg)
        longOptional := own.any (fun o => !o.longStrings.isEmpty && o.hasOptionalArg)
        oldRequired := own.any (fun o => !o.oldStrings.isEmpty && !o.hasOptionalArg && o.hasRequiredArg)
        oldOptional := own.any (fun o => !o.oldStrings.isEmpty && o.hasOptionalArg)
        oldStrings := old
        noArgs := shortLetters (all.filter (fun o => !o.hasRequiredArg && !o.hasOptionalArg && o.complete.isNone))
        requiredArgs := shortLetters (all.filter (fun o => o.hasRequiredArg))
        optionalArgs := shortLetters (all.filter (fun o => !o.hasRequiredArg && o.hasOptionalArg)) }

/-- A pattern of the dispatcher. -/
inductive DPat where
  /-- `--*` -/
  | long
  /-- `-*` -/
  | dash
  /-- `--*=*` -/
  | longEq
  /-- `-*=*` -/
  | dashEq
  /-- the old-style option strings -/
  | olds (strings : List Str)
  /-- `-*([flags])[args]` -/
  | shortEnd (flags args : Str)
  /-- `-*([flags])[args]*` -/
  | shortAny (flags args : Str)
  deriving DecidableEq

/-- What a clause of the dispatcher does. -/
inductive DAct where
  /-- nothing -/
  | nop
  /-- `__complete_option "$prev" "$cur" WITHOUT_OPTIONAL && return 0` -/
  | word
  /-- `__complete_option "-${prev: -1}" "$cur" WITHOUT_OPTIONAL && return 0` -/
  | last
  /-- `__complete_option "${cur%%=*}" "${cur#*=}" WITH_OPTIONAL && return 0` -/
  | eq
  /-- the loop over the letters of `cur` -/
  | loop
  deriving DecidableEq

/-- A clause: pattern, action, and whether it ends with `;&`. -/
structure DClause where
  pat : DPat
  act : DAct
  through : Bool := false
  deriving DecidableEq

/-- `_get_prev_completion`, `bash_option_completion.py` 249-268. -/
def prevClauses (i : DispatchInfo) : List DClause :=
  [if i.longRequired then ⟨.long, .word, false⟩ else ⟨.long, .nop, false⟩] ++
  (if i.oldRequired && i.shortRequired then
    [⟨.dash, .word, true⟩, ⟨.shortEnd i.noArgs i.requiredArgs, .last, false⟩]
  else if i.oldRequired then [⟨.dash, .word, false⟩]
  else if i.shortRequired then [⟨.shortEnd i.noArgs i.requiredArgs, .last, false⟩]
  else [])

/-- `_get_cur_completion`, lines 271-312. The clause `--*);;` is left out if nothing comes after it (308-309); no
clause `-*=*);;` is ever written (305-306). -/
def curClauses (i : DispatchInfo) : List DClause :=
  let short := i.shortRequired || i.shortOptional
  let rest :=
    (if short && !i.oldStrings.isEmpty then [⟨.olds i.oldStrings, .nop, false⟩] else []) ++
    (if i.oldRequired || i.oldOptional then [⟨.dashEq, .eq, true⟩] else []) ++
    (if short then [⟨.shortAny i.noArgs (i.requiredArgs ++ i.optionalArgs), .loop, false⟩] else [])
  (if i.longRequired || i.longOptional then [⟨.longEq, .eq, false⟩] else [⟨.longEq, .nop, false⟩]) ++
  (if rest.isEmpty then [] else ⟨.long, .nop, false⟩ :: rest)

/-- `*([flags])[args]*` on the letters of a word. -/
def clusterHas (flags args : Str) : Str → Bool
  | [] => false
  | c :: w => args.contains c || (flags.contains c && clusterHas flags args w)

/-- `*([flags])[args]` on the letters of a word. -/
def clusterEnds (flags args : Str) (w : Str) : Bool :=
  match w.getLast? with
  | some c => args.contains c && w.dropLast.all (fun x => flags.contains x)
  | none => false

/-- Bash's `case`. -/
def DPat.matches (w : Str) : DPat → Bool
  | .long => startsWith w ['-', '-']
  | .dash => startsWith w ['-']
  | .longEq => startsWith w ['-', '-'] && (w.drop 2).contains '='
  | .dashEq => startsWith w ['-'] && (w.drop 1).contains '='
  | .olds ss => ss.contains w
  | .shortEnd flags args => startsWith w ['-'] && clusterEnds flags args w.tail
  | .shortAny flags args => startsWith w ['-'] && clusterHas flags args w.tail

/-- Something the function does: the code of an option's completer runs for a value, and what it finds gets a
prefix; the option strings of a command (given by its path) are offered; the code of a positional's completer runs;
the names of the subcommands are offered; the words from some place on are completed as a command line. -/
inductive BEvent where
  | arg (code value pre : Str)
  | strings (path : Str)
  | pos (code : Str)
  | names (ns : List Str)
  | commandArg (place : Nat)
  deriving DecidableEq

/-- The loop over the letters of `cur`, lines 293-302: `pre` are the letters seen. -/
def letterLoop (complete : Str → Bool → List Str × Bool) (pre : Str) : Str → List BEvent × Bool
  | [] => ([], false)
  | c :: value =>
    let r := complete ['-', c] true
    let es := r.1.map (fun code => BEvent.arg code value (pre ++ [c]))
    if r.2 then (es, true)
    else let q := letterLoop complete (pre ++ [c]) value; (es ++ q.1, q.2)

/-- The action of a clause: what it does and whether it returned 0. -/
def DAct.run (complete : Str → Bool → List Str × Bool) (prev cur : Str) : DAct → List BEvent × Bool
  | .nop => ([], false)
  | .word => let r := complete prev false; (r.1.map (fun code => .arg code cur []), r.2)
  | .last => let r := complete ('-' :: (prev.getLast?.map (fun c => [c])).getD []) false
             (r.1.map (fun code => .arg code cur []), r.2)
  | .eq => let r := complete (beforeEq cur) true; (r.1.map (fun code => .arg code (afterEq cur) []), r.2)
  | .loop => letterLoop complete ['-'] cur.tail

/-- The clauses from a matching one on: `;&` goes on with the next clause without looking at its pattern. -/
def runClauses (act : DAct → List BEvent × Bool) : List DClause → List BEvent × Bool
  | [] => ([], false)
  | cl :: cls =>
    let r := act cl.act
    if r.2 then r
    else if cl.through then let q := runClauses act cls; (r.1 ++ q.1, q.2)
    else r

/-- `case WORD in clauses esac`: what is done and whether the function returned 0. -/
def runCase (act : DAct → List BEvent × Bool) (w : Str) (cls : List DClause) : List BEvent × Bool :=
  runClauses act (cls.dropWhile (fun cl => !cl.pat.matches w))

/-- `_get_dispatcher`, lines 315-327. -/
def runDispatcher (i : DispatchInfo) (complete : Str → Bool → List Str × Bool) (prev cur : Str) : List BEvent × Bool :=
  let required := i.shortRequired || i.longRequired || i.oldRequired
  let optional := i.shortOptional || i.longOptional || i.oldOptional
  let act := DAct.run complete prev cur
  let r := if required then runCase act prev (prevClauses i) else ([], false)
  if r.2 then r
  else
    let q := if required || optional then runCase act cur (curClauses i) else ([], false)
    (r.1 ++ q.1, q.2)

/-! ## The function of a command -/

/-- The command line as the functions see it: `COMP_WORDS`, `POSITIONALS`, `END_OF_OPTIONS`, `prev`, `cur`. -/
structure BLine where
  compWords : List Str := []
  positionals : List Str
  endOfOptions : Bool
  prev : Str
  cur : Str

/-- What the generator gets from outside: the codes of the completers, and the status of the conditions. -/
structure BEnv where
  optCode : Cmd → Opt → Str
  posCode : Cmd → Pos → Str
  holds : Cmd → Str → Bool

/-- `generate_option_completion`, `bash_option_completion.py` 330-349. The words `WITH_OPTIONAL` and
`WITHOUT_OPTIONAL` are left out if there are no optional arguments; the function then does not look at them. -/
def runOptionCompletion (E : BEnv) (ln : BLine) (parents : List Cmd) (c : Cmd) : Except Err (List BEvent × Bool) := do
  let os ← mapE (argOpt (E.optCode c) parents c) (getOptions parents c false true)
  if os.isEmpty then .ok ([], false)
  else do
    let i ← dispatchInfo parents c
    .ok (runDispatcher i (completeOption (E.holds c) os) ln.prev ln.cur)

/-- The completer of a positional is `command_arg`, `bash.py` 96-98 and `bash_positionals_completion.py` 18-22. -/
def Pos.isCommandArg (p : Pos) : Bool := p.complete.head? == some (.str (S "command_arg"))

/-- `_generate_command_arg_call`, `bash.py` 95-115: the place of the first word that equals the positional
before. Simplification: no word is quoted, so `COMP_WORDS` and `POSITIONALS` have the same texts. -/
def runCommandArg (ln : BLine) (parents : List Cmd) (c : Cmd) : Option Nat :=
  match c.data.positionals.find? Pos.isCommandArg with
  | none => none
  | some p =>
    let num := positionalNum parents p.number
    if num ≤ ln.positionals.length then
      let w := if 2 ≤ num then ln.positionals.getD (num - 2) [] else (ln.positionals.getLast?).getD []
      ln.compWords.findIdx? (fun x => x == w)
    else none

/-- `_get_positional_condition`, `bash_positionals_completion.py` 33-37. -/
def Pos.isHere (ln : BLine) (parents : List Cmd) (p : Pos) : Bool :=
  if p.repeatable then decide (positionalNum parents p.number ≤ ln.positionals.length)
  else decide (ln.positionals.length = positionalNum parents p.number)

/-- `_generate_positionals_with_when`, lines 40-58. -/
def runPositionalsWhen (E : BEnv) (ln : BLine) (parents : List Cmd) (c : Cmd) (ps : List Pos) : Option Str :=
  (ps.find? (fun p => p.isHere ln parents && (match p.when_ with
    | some w => E.holds c w
    | none => true))).map (E.posCode c)

/-- `_generate_positionals_without_when`, lines 61-75. -/
def runPositionalsNoWhen (E : BEnv) (ln : BLine) (parents : List Cmd) (c : Cmd) (ps : List Pos) : Option Str :=
  ((groupBy (E.posCode c) ps).find? (fun g => g.2.any (fun p => p.isHere ln parents))).map (·.1)

/-- `generate`, lines 78-93, and `_generate_subcommand_positional`, 25-30. The names of the subcommands are those
of `get_choices`: their names, with the aliases. -/
def runPositionals (E : BEnv) (ln : BLine) (parents : List Cmd) (c : Cmd) : Option BEvent :=
  let ps := c.data.positionals.filter (fun p => !p.isCommandArg)
  let r := if c.data.positionals.any (fun p => p.when_.isSome) then runPositionalsWhen E ln parents c ps
    else runPositionalsNoWhen E ln parents c ps
  match r with
  | some code => some (.pos code)
  | none =>
    match c.sub with
    | some n => if ln.positionals.length = positionalNum parents n then
        some (.names (c.children.flatMap (fun d => d.data.prog :: d.data.aliases))) else none
    | none => none

/-- `is_worth_a_function`, `utils.py` 277-305. -/
def Cmd.worth (c : Cmd) : Bool :=
  c.sub.isSome ||
  c.data.positionals.any (fun p =>
    match p.complete.head? with
    | some (.str s) =>
      if s = S "none" then false
      else if s = S "integer" ∨ s = S "float" then decide (1 < p.complete.length)
      else true
    | _ => true) ||
  (getOptions [] c false false).any (fun o => !o.strings.contains (S "--help") && !o.strings.contains (S "--version"))

/-- The parts after the subcommand call, `bash.py` 117-162: what is done and whether 0 is returned. -/
def runOwn (E : BEnv) (ln : BLine) (parents : List Cmd) (c : Cmd) : Except Err (List BEvent × Bool) :=
  match runCommandArg ln parents c with
  | some i => .ok ([.commandArg i], true)
  | none => do
    let r ← runOptionCompletion E ln parents c
    if r.2 then .ok r
    else if !(getOptions parents c false false).isEmpty && !ln.endOfOptions && startsWith ln.cur ['-'] then
      .ok (r.1 ++ [.strings (subcommandPath parents c)], false)
    else match runPositionals E ln parents c with
      | some e => .ok (r.1 ++ [e], true)
      | none => .ok (r.1, false)

/-- What a subcommand call leads to: the function returns with a status, or goes on. -/
inductive CallResult where
  | ended (es : List BEvent) (status : Bool)
  | goOn (es : List BEvent)

mutual
/-- The function of a command, `BashCompletionGenerator._generate`, `bash.py` 117-162. -/
def Cmd.runFunction (E : BEnv) (ln : BLine) (parents : List Cmd) : Cmd → Except Err (List BEvent × Bool)
  | .node d s ch => do
    let c := Cmd.node d s ch
    let call ← (match s.bind (fun n => ln.positionals[positionalNum parents n - 1]?) with
      | some w => Cmd.runCall E ln parents c w ch
      | none => .ok (.goOn []))
    match call with
    | .ended es status => .ok (es, status)
    | .goOn es => do
      let r ← runOwn E ln parents c
      .ok (es ++ r.1, r.2)
/-- `_generate_subcommand_call`, `bash.py` 70-93: the first subcommand with that name is called. -/
def Cmd.runCall (E : BEnv) (ln : BLine) (parents : List Cmd) (c : Cmd) (w : Str) : List Cmd → Except Err CallResult
  | [] => .ok (.goOn [])
  | d :: ds =>
    if (variations c d).contains w then
      if d.worth then do
        let r ← d.runFunction E ln (parents ++ [c])
        .ok (if r.2 then .ended r.1 true
          else if c.data.inheritOptions = .val true then .goOn r.1 else .ended r.1 false)
      else .ok (if c.data.inheritOptions = .val true then .goOn [] else .ended [] true)
    else Cmd.runCall E ln parents c w ds
end

/-- The whole script for a command line: `parse_commandline` and the function of the program. `none`: the
function does not exist. `words` are the words before the cursor without the program, `cur` the one at the cursor.
The parser is the one given. -/
def bashComplete (E : BEnv) (parse : List Str → Str → List Str → BState) (prog : Str) (root : Cmd) (words : List Str)
    (cur : Str) (post : List Str) : Option (Except Err (List BEvent × Bool)) :=
  if root.worth then
    let s := parse words cur post
    some (root.runFunction E
      { compWords := prog :: words ++ cur :: post, positionals := s.positionals, endOfOptions := s.endOfOptions
        prev := (words.getLast?).getD prog, cur := cur } [])
  else none

end CC
