import Verif.Model.Algo
import Verif.Model.BashParser
import Verif.Model.QueryHelpers
/-!
# Model of `crazy_complete/bash_option_strings_completion.py`

The generated code is modelled by its conditions as token lists (`Spec/ShellGrammar.lean` has the
grammar of the shell) and the strings it adds to `opts`. Simplifications: conditions are compared
as tokens where Python compares their text; `compgen -W` is a filter by the beginning of the word
(option strings without characters that are special to Bash); `capture_variable` is a function of the
option (Python stores its result in the option).
-/

namespace CC

open ShellGrammar (Tok run)

/-- The simple commands in the conditions. -/
inductive OSPrim where
  /-- `(( ! ${#A[@]} && ! ${#B[@]} ))`, lines 43 and 45. -/
  | noneSet (vars : List Str)
  /-- A command of a `when` condition. -/
  | when_ (p : BashPrim)
  deriving DecidableEq

/-- A `when` token as a token of the condition. -/
def liftTok : Tok BashPrim → Tok OSPrim
  | .bang => .bang
  | .lpar => .lpar
  | .rpar => .rpar
  | .and => .and
  | .or => .or
  | .cmd p => .cmd (.when_ p)

/-- `_Option`, line 15: the option, the variables in its conditions, and the code of `when`. -/
structure OptEntry where
  option : Opt
  conditions : List Str
  when_ : Option (List (Tok BashPrim))

/-- The strings of one option, `_make_option_strings`, lines 21-37. -/
def offeredStrings (o : Opt) : List Str :=
  let equal := o.hasOptionalArg || (o.hasRequiredArg && (o.longSep == .both || o.longSep == .equals))
  o.shortStrings ++
    (if equal then o.longStrings.map (· ++ ['=']) ++ o.oldStrings.map (· ++ ['=']) else o.longStrings ++ o.oldStrings)

/-- `_get_option_full_condition`, lines 41-49. The empty condition is the empty list. -/
def OptEntry.full (e : OptEntry) : List (Tok OSPrim) :=
  let when_ := (e.when_.getD []).map liftTok
  match e.conditions, when_ with
  | c :: cs, w :: ws => .cmd (.noneSet (c :: cs)) :: .and :: w :: ws
  | c :: cs, [] => [.cmd (.noneSet (c :: cs))]
  | [], ws => ws

/-- `_generate_option_strings_completion`, lines 52-62: each condition with its strings. -/
def optionLines (entries : List OptEntry) : List (List (Tok OSPrim) × List Str) :=
  (groupBy OptEntry.full entries).map (fun g => (g.1, g.2.flatMap (fun e => offeredStrings e.option)))

/-- `conditions.remove(final_condition)` or nothing, lines 103-107, for every final condition. -/
def removeFinals (conditions finals : List Str) : List Str :=
  finals.foldl (fun cs f => cs.erase f) conditions

/-- `get_options_by_option_strings` and `capture_variable`, as `bash_when.py` uses them. -/
def bashResolve (options : List Opt) (ss : List Str) : Except Err (List Str) := do
  let os ← optionsByStrings options ss
  .ok (os.map captureVariable)

/-- The loop body of `generate`, lines 95-115, for an option that is not hidden. -/
def optEntry (isRegex : Str → Bool) (options : List Opt) (finals : List Str) (o : Opt) : Except Err OptEntry := do
  let conflicting ← conflictingOptions options o
  let conditions := conflicting.map captureVariable ++
    (if o.repeatable = .val false then [captureVariable o] else [])
  let conditions := uniq (sortStrs (removeFinals conditions finals))
  let when_ ← match o.when_ with
    | none => .ok none
    | some w => do
      let ts ← parseWhen isRegex w
      let code ← bashGenerate (bashResolve options) ts
      .ok (some code)
  .ok ⟨o, conditions, when_⟩

/-- The generated code: the variables of the final options and the lines. -/
structure OptionCode where
  finals : List Str
  lines : List (List (Tok OSPrim) × List Str)
  deriving DecidableEq

/-- `generate`, lines 77-125, for a command with options. -/
def optionCode (isRegex : Str → Bool) (parents : List Cmd) (c : Cmd) : Except Err OptionCode := do
  let finals := (getFinalOptions parents c).map captureVariable
  let entries ← mapE (optEntry isRegex c.data.options finals) (c.data.options.filter (fun o => !o.hidden))
  .ok ⟨finals, optionLines entries⟩

/-- The status of a simple command. -/
def OSPrim.succeeds (rx : Bool → Str → Str → Bool) (σ : BashState) : OSPrim → Bool
  | .noneSet vars => vars.all (fun v => (σ.vars v).isEmpty)
  | .when_ p => p.succeeds rx σ

/-- `COND && opts+=(...)` or `opts+=(...)`: whether the strings are added. -/
def lineRuns (rx : Bool → Str → Str → Bool) (σ : BashState) (cond : List (Tok OSPrim)) : Bool :=
  cond.isEmpty || run (OSPrim.succeeds rx σ) cond == some true

/-- Bash can read the code: the `if` of lines 71-73 needs a command in its body. -/
def OptionCode.parses (code : OptionCode) : Bool := code.finals.isEmpty || !code.lines.isEmpty

/-- What the code puts into `COMPREPLY`, lines 65-74 and 117-123. -/
def OptionCode.offers (code : OptionCode) (rx : Bool → Str → Str → Bool) (σ : BashState) (endOfOptions : Bool) (cur : Str) :
    List Str :=
  if !endOfOptions && startsWith cur ['-'] then
    let opts := if code.finals.all (fun v => (σ.vars v).isEmpty) then
        (code.lines.filter (fun l => lineRuns rx σ l.1)).flatMap (·.2)
      else []
    opts.filter (fun w => startsWith w cur)
  else []

end CC
