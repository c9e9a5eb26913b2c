import Verif.Model.FishScript
import Verif.Model.FishConditions
import Verif.Model.Helpers
import Verif.Model.StrUtils
import Verif.Model.QueryHelpers
import Verif.Spec.Decimal
/-!
# Model of `crazy_complete/fish.py`: the text of the generated script

What `Model/FishScript.lean` leaves out of the `complete` commands: the texts of the conditions, the variables for
them, the descriptions, the flags and the arguments, and the blocks of the script from `set -l prog` on. The
arguments of a `complete` command come from the completion objects (`Model/FishComplete.lean`); here they are given
by a function of the command and of the number of the definition. Left out: the notice, the comments, the included
files, the code of the helper functions and the modeline.
-/

namespace CC

open ShellGrammar (Tok)

/-- `PositionalNum.TEST_OPERATORS`, `fish_conditions.py` 152-159. -/
def CmpOp.testName : CmpOp → Str
  | .eq => S "-eq" | .ne => S "-ne" | .le => S "-le" | .ge => S "-ge" | .lt => S "-lt" | .gt => S "-gt"

/-- The variable at the start of a condition command, without the dollar sign, `fish_conditions.py` 70, 86, 117, 147,
174 and 199. -/
def FishPrim.variable : FishPrim → Str
  | .prim (.optionIs _) => S "option_is"
  | .prim (.optionMatch _) => S "option_match"
  | .prim (.hasOption _) => S "has_option"
  | .prim (.posCount ..) => S "num_of_positionals"
  | .prim (.posContains ..) => S "positional_contains"
  | .hidden _ => S "has_option"

/-- The arguments of a condition command, the same lines. -/
def FishPrim.args : FishPrim → List Str
  | .prim (.optionIs args) => args
  | .prim (.optionMatch args) => args
  | .prim (.hasOption args) => args
  | .prim (.posCount op n) => [op.testName, intStr n]
  | .prim (.posContains nocase n values) => (if nocase then [S "-i"] else []) ++ intStr n :: values
  | .hidden os => S "WITH_INCOMPLETE" :: os

/-- `get_code` of the condition classes but `Not`, `fish_conditions.py` 68-70, 82-86, 103-117, 134-147, 171-174 and
190-199. -/
def FishPrim.text (p : FishPrim) : Str := makeConditionCommand ('$' :: p.variable) p.args

/-- `get_code` of the condition classes, with `Not.get_code`, `fish_conditions.py` 55-56. -/
def FishCond.text : FishCond → Str
  | .prim p => FishPrim.text (.prim p)
  | .hidden os => FishPrim.text (.hidden os)
  | .not c => S "not " ++ c.text

/-- The pieces of the text of `when`, `fish_conditions.py` 271-280. -/
def whenPiece : Tok FishPrim → Str
  | .lpar => S "begin"
  | .rpar => S ";end"
  | .bang => S "!"
  | .and => S "&&"
  | .or => S "||"
  | .cmd p => p.text

/-- The condition classes of the parts of `when`: `replace_commands`, `fish_conditions.py` 202-227, as a token of the
text. -/
def whenPrim (c : Cond) : Except Err (List (Tok FishPrim)) :=
  (queryCond false c).map (·.map (fun t => match t with
    | .cmd p => .cmd (FishPrim.prim p) | .bang => .bang | .lpar => .lpar | .rpar => .rpar
    | .and => .and | .or => .or))

/-- `'"%s"' % text`. -/
def inDouble (t : Str) : Str := '"' :: (t ++ ['"'])

/-- `Conditions.get_conditions`, `fish_conditions.py` 263-284. -/
def conditionTexts (cs : List FishCond) (when_ : List (Tok Cond)) : Except Err (List Str) :=
  let texts := (optimizedConditions cs).map (fun c => inDouble c.text)
  if when_.isEmpty then .ok texts
  else do
    let ts ← genTokens whenPrim when_
    .ok (texts ++ [inDouble (joinWith [' '] (ts.map whenPiece))])

/-! ## The `complete` commands -/

/-- `description`, `fish.py` 198, 245 and 263. -/
def FishTarget.description : FishTarget → Option Str
  | .option o => o.help
  | .positional p => p.help
  | .subcommands _ => some (S "Commands")

/-- `requires_argument`, `fish.py` 196, 243 and 35. -/
def FishTarget.requires : FishTarget → Bool
  | .option o => o.hasRequiredArg
  | .positional _ => true
  | .subcommands _ => false

/-- `keep_order`, `fish.py` 197, 244 and 36. -/
def FishTarget.keepOrder : FishTarget → Bool
  | .option o => o.nosort
  | .positional p => p.nosort
  | .subcommands _ => false

/-- The calls of `get_complete_cmd` before the conditions, `fish.py` 62-84. -/
def completeCalls (stacking : Bool) (d : FishDef) (args : List Str) : List FishCall :=
  [.setCommand (S "$prog") true, .addOld d.old false, .addLong d.long false,
    if stacking then .addShort d.short false else .addOld d.short false] ++
  (match d.target.description with
   | some t => [.setDescription (some t) false]
   | none => []) ++
  (if d.target.requires then [.addFlag 'r'] else []) ++
  (if d.target.keepOrder then [.addFlag 'k'] else []) ++
  [.parseArgs args]

/-- The conditions as they stand in the command: as they are, or variables that hold them, `fish.py` 147-152. -/
def placeConditions (inline : Bool) (m : VarManager) (texts : List Str) : List Str × VarManager :=
  if inline then (texts, m) else m.adds texts

/-- The `complete` command of a definition, and the variables: `get_complete_cmd`, `fish.py` 59-89, and the loop of
`__init__`, 144-155. -/
def fishLine (inline stacking : Bool) (d : FishDef) (args : List Str) (m : VarManager) : Except Err (Str × VarManager) := do
  let texts ← conditionTexts d.conds d.when_
  let r := placeConditions inline m texts
  let cmd ← ({} : FishCmd).calls (completeCalls stacking d args ++ r.1.map (FishCall.addCondition · true) ++
    [.insertCondition 0 (S "$P") true])
  .ok (cmd.get.1, r.2)

/-- The loop of `__init__` over the definitions, `fish.py` 144-155; `i` is the number of the first one. -/
def fishLines (inline stacking : Bool) (args : Nat → List Str) : Nat → List FishDef → VarManager →
    Except Err (List Str × VarManager)
  | _, [], m => .ok ([], m)
  | i, d :: ds, m => do
    let l ← fishLine inline stacking d (args i) m
    let r ← fishLines inline stacking args (i + 1) ds l.2
    .ok (l.1 :: r.1, r.2)

/-- The block of a command, `fish.py` 329-334; no lines if it has no definitions. -/
def fishBlock (isRegex : Str → Bool) (inline stacking : Bool) (args : Nat → List Str) (parents : List Cmd) (c : Cmd) :
    Except Err (List Str) := do
  let ds ← fishDefsOf isRegex parents c
  let r ← fishLines inline stacking args 0 ds { name := S "C" }
  if r.1.isEmpty then .ok []
  else .ok ((S "# command " ++ joinWith [' '] ((parents ++ [c]).map (·.data.prog))) :: r.2.lines ++ r.1)

/-! ## The script -/

/-- The functions that get a variable, `fish.py` 304-306. -/
def scriptFunctions : List Str :=
  [S "positional_contains", S "has_option", S "option_is", S "option_match", S "num_of_positionals",
   S "positional_position"]

/-- The primitive conditions of a definition: those whose `get_code` is called. -/
def FishDef.prims (d : FishDef) : List FishPrim :=
  match getConditions d.conds d.when_ with
  | .ok texts => texts.flatten.filterMap (fun t => match t with | .cmd p => some p | _ => none)
  | .error _ => []

/-- `helpers.is_used(func)`, `fish.py` 307: a condition calls `use_function`, or something else does (`extra`: the
completers). -/
def functionUsed (extra : Str → Bool) (ds : List FishDef) (f : Str) : Bool :=
  extra f || ds.any (fun d => d.prims.any (fun p => decide (p.variable = f)))

/-- The first block, `fish.py` 300-316; `pre` is the prefix of the helper functions, and
`helpers.use_function` gives the name with the prefix. -/
def fishHead (pre prog : Str) (used : Str → Bool) : List Str :=
  [S "set -l prog '" ++ prog ++ S "'", S "set -l P '" ++ realName pre (S "prepare") ++ S "'"] ++
  (scriptFunctions.filter used).map (fun f => S "set -l " ++ f ++ S " '" ++ realName pre f ++ S "'") ++
  [[], S "# Delete existing completions", S "complete -c $prog -e", [], S "# Generally disable file completion",
   S "complete -c $prog -x"]

/-- The block for `wraps`, `fish.py` 318-321. -/
def fishWraps : Option Str → List Str
  | some w => if w.isEmpty then [] else [S "# Wrap command", S "complete -c $prog -w " ++ w]
  | none => []

/-- The block for the aliases, `fish.py` 336-340. -/
def fishAliases (prog : Str) (aliases : List Str) : List Str :=
  aliases.flatMap (fun a => [S "complete -c " ++ a ++ S " -e", S "complete -c " ++ a ++ S " -w " ++ prog])

/-- `generate_completion`, `fish.py` 277-344, without the parts named at the top. `args` gives the arguments of the
definitions of a command. -/
def fishScriptText (isRegex : Str → Bool) (inline stacking : Bool) (pre : Str) (extra : Str → Bool)
    (args : List Cmd → Cmd → Nat → List Str) (root : Cmd) : Except Err Str := do
  let ds ← fishScript isRegex root
  let blocks ← mapE (fun e => fishBlock isRegex inline stacking (args e.1 e.2) e.1 e.2) (root.walk [])
  .ok (outputGet (
    ([fishHead pre root.data.prog (functionUsed extra ds), fishWraps root.data.wraps] ++ blocks ++
      [fishAliases root.data.prog root.data.aliases]).map (joinWith ['\n'])))

/-! ## The helper functions that the conditions call -/

/-- `positional_contains [-i] NUM WORDS`, `fish_helpers.py` 250-279, with the feature `nocase` when `-i` is given. -/
def fishPositionalContains (rx : Bool → Str → Str → Bool) (σ : QueryState) (args : List Str) : Bool :=
  let nocase := args.head? == some (S "-i")
  match if nocase then args.tail else args with
  | [] => false
  | n :: values =>
    match Decimal.number n with
    | some n => QueryPrim.succeedsFish rx σ (.posContains nocase n values)
    | none => false

/-- `num_of_positionals OPERATOR NUMBER`, `fish_helpers.py` 447-480. -/
def fishNumOfPositionals (σ : QueryState) (args : List Str) : Bool :=
  match args with
  | [op, n] => ((Decimal.number n).bind (Decimal.testOperator op (σ.positionals.length : Int))).getD false
  | _ => false

/-- `has_option [WITH_INCOMPLETE] OPTIONS`, `fish_helpers.py` 281-322; `hid` is the test of options that are perhaps
incomplete (see `FishPrim.succeeds`). -/
def fishHasOption (rx : Bool → Str → Str → Bool) (hid : List Str → Bool) (σ : QueryState) (args : List Str) : Bool :=
  if args.head? = some (S "WITH_INCOMPLETE") then hid args.tail else QueryPrim.succeedsFish rx σ (.hasOption args)

/-- Which calls of functions with the prefix `pre` succeed, once `query_init` knows `σ`. The function `prepare` does;
it calls `query_init`. -/
def fishCallSucceeds (pre : Str) (rx : Bool → Str → Str → Bool) (hid : List Str → Bool) (σ : QueryState) (call : List Str) : Bool :=
  match call with
  | [] => false
  | f :: args =>
    if f = realName pre (S "prepare") then args.isEmpty
    else if f = realName pre (S "positional_contains") then fishPositionalContains rx σ args
    else if f = realName pre (S "num_of_positionals") then fishNumOfPositionals σ args
    else if f = realName pre (S "has_option") then fishHasOption rx hid σ args
    else if f = realName pre (S "option_is") then QueryPrim.succeedsFish rx σ (.optionIs args)
    else if f = realName pre (S "option_match") then QueryPrim.succeedsFish rx σ (.optionMatch args)
    else false

end CC
