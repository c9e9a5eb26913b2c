import Verif.Model.ShellParser
import Verif.Model.OptionString
import Verif.Model.Shell
/-!
# Model of `crazy_complete/when.py`, `bash_when.py`, `zsh_when.py` and the `when` part of
`fish_conditions.py`
-/

namespace CC

open ShellGrammar (Tok)

/-- Comparison operators, `when.py` 127. -/
inductive CmpOp where
  | eq | ne | le | ge | lt | gt
  deriving DecidableEq, Repr

/-- The text of an operator, `when.py` 127. -/
def CmpOp.text : CmpOp → Str
  | .eq => ['=', '='] | .ne => ['!', '='] | .le => ['<', '='] | .ge => ['>', '=']
  | .lt => ['<'] | .gt => ['>']

/-- `operator in self.OPERATORS`, `when.py` 127 and 140. -/
def parseCmpOp (s : Str) : Option CmpOp :=
  [CmpOp.eq, .ne, .le, .ge, .lt, .gt].find? (fun o => o.text == s)

/-- The condition objects of `when.py` 15-178. -/
inductive Cond where
  | optionIs (options values : List Str) (nocase any : Bool)
  | optionMatch (options : List Str) (regex : Str) (nocase any : Bool)
  | hasOption (options : List Str)
  | positionalCount (op : CmpOp) (n : Int)
  | positionalContains (nocase : Bool) (n : Int) (values : List Str)
  deriving DecidableEq, Repr

/-- The `while args` loop of `when.py` 25-35 (and 70-80): strips leading `nocase`/`any`.
`lower` is ASCII only; no other character lowers to a letter of these two words. -/
def takeFlags (nocase any : Bool) : List Str → Bool × Bool × List Str
  | [] => (nocase, any, [])
  | a :: as =>
    if lower a = S "nocase" then takeFlags true any as
    else if lower a = S "any" then takeFlags nocase true as
    else (nocase, any, a :: as)

/-- The `for arg in args` loop of `when.py` 37-44: arguments before and after the first `--`. -/
def splitAtDashes : List Str → List Str × List Str
  | [] => ([], [])
  | a :: as => if a = ['-', '-'] then ([], as)
    else ((a :: (splitAtDashes as).1), (splitAtDashes as).2)

/-- `OptionIs.__init__`, `when.py` 18-57. -/
def parseOptionIs (args : List Str) : Except Err Cond :=
  let f := takeFlags false false args
  let p := splitAtDashes f.2.2
  if p.1.any (fun o => !isValidOptionString o) then .error .crazyError
  else if p.1.isEmpty then .error .crazyError
  else if p.2.isEmpty then .error .crazyError
  else .ok (.optionIs p.1 p.2 f.1 f.2.1)

/-- `OptionMatch.__init__`, `when.py` 63-110; `isRegex` stands for the external `grep` check of
`str_utils.py` 28-42. -/
def parseOptionMatch (isRegex : Str → Bool) (args : List Str) : Except Err Cond :=
  let f := takeFlags false false args
  let p := splitAtDashes f.2.2
  match p.2 with
  | _ :: _ :: _ => .error .crazyError
  | rs =>
    if p.1.any (fun o => !isValidOptionString o) then .error .crazyError
    else if p.1.isEmpty then .error .crazyError
    else match rs with
      | [r] => if r.isEmpty then .error .crazyError
               else if !isRegex r then .error .crazyError
               else .ok (.optionMatch p.1 r f.1 f.2.1)
      | _ => .error .crazyError

/-- `HasOption.__init__`, `when.py` 116-121. -/
def parseHasOption (args : List Str) : Except Err Cond :=
  if args.isEmpty then .error .crazyError else .ok (.hasOption args)

/-- `PositionalCount.__init__`, `when.py` 129-152. -/
def parsePositionalCount : List Str → Except Err Cond
  | _ :: _ :: _ :: _ => .error .crazyError
  | [] => .error .crazyError
  | o :: rest =>
    match parseCmpOp o with
    | none => .error .crazyError
    | some op =>
      match rest with
      | [] => .error .crazyError
      | n :: _ => match pyInt n with
        | none => .error .crazyError
        | some i => .ok (.positionalCount op i)

/-- `PositionalContains.__init__`, `when.py` 158-178. -/
def parsePositionalContains (args : List Str) : Except Err Cond :=
  let nocase := args.head? == some ['-', 'i']
  let args := if nocase then args.tail else args
  match args with
  | [] => .error .crazyError
  | n :: values =>
    match pyInt n with
    | none => .error .crazyError
    | some i => if values.isEmpty then .error .crazyError
                else .ok (.positionalContains nocase i values)

/-- One command of `replace_commands`, `when.py` 188-201. -/
def parseCond (isRegex : Str → Bool) : List Str → Except Err Cond
  | [] => .error .crash
  | cmd :: args =>
    if cmd = S "option_is" then parseOptionIs args
    else if cmd = S "option_match" then parseOptionMatch isRegex args
    else if cmd = S "has_option" then parseHasOption args
    else if cmd = S "positional_count" then parsePositionalCount args
    else if cmd = S "positional_contains" then parsePositionalContains args
    else .error .crazyError

/-- `replace_commands`, `when.py` 181-205. -/
def replaceCommands (isRegex : Str → Bool) : List (Tok (List Str)) → Except Err (List (Tok Cond))
  | [] => .ok []
  | t :: ts => do
    let t' ← match t with
      | .cmd a => (parseCond isRegex a).map Tok.cmd
      | .bang => .ok .bang
      | .lpar => .ok .lpar
      | .rpar => .ok .rpar
      | .and => .ok .and
      | .or => .ok .or
    let r ← replaceCommands isRegex ts
    .ok (t' :: r)

/-- `parse_when`, `when.py` 219-227 (ValueError becomes CrazyError). -/
def parseWhen (isRegex : Str → Bool) (s : Str) : Except Err (List (Tok Cond)) :=
  match shellParse s with
  | .error _ => .error .crazyError
  | .ok ts => replaceCommands isRegex ts

/-- `needs_braces`, `when.py` 208-216. -/
def needsBraces {α} (ts : List (Tok α)) : Bool :=
  ts.length > 2 && ts.any (fun t => match t with | .or => true | _ => false)

/-! ### Bash -/

/-- A reference to the value array of an option: `"${V[@]}"` (`all = true`) or
`"${V[@]: -1:1}"`, `bash_when.py` 109-112. -/
structure VarRef where
  var : Str
  all : Bool
  deriving DecidableEq, Repr

/-- The simple commands that `bash_when.py` emits. -/
inductive BashPrim where
  /-- `array_contains[_nocase] VALUE REFS`, line 66 -/
  | arrayContains (nocase : Bool) (value : Str) (refs : List VarRef)
  /-- `array_match [-i] -- REGEX REFS`, lines 79-81 -/
  | arrayMatch (nocase : Bool) (regex : Str) (refs : List VarRef)
  /-- `(( ${#A[@]} + ${#B[@]} ))`, line 90 -/
  | anySet (vars : List Str)
  /-- `(( ${#POSITIONALS[@]} OP N ))`, line 93 -/
  | posCount (op : CmpOp) (n : Int)
  /-- `array_contains "${POSITIONALS[I]}" VALUES`, lines 96-103; with `nocase` both sides are
  lower-cased -/
  | posContains (nocase : Bool) (index : Int) (values : List Str)
  deriving DecidableEq, Repr

/-- Join commands with `||`. -/
def orJoin {α} : List α → List (Tok α)
  | [] => []
  | [a] => [.cmd a]
  | a :: b :: as => .cmd a :: .or :: orJoin (b :: as)

/-- The `_gen_*` methods, `bash_when.py` 54-112. `resolve` stands for
`get_options_by_option_strings` followed by `capture_variable`. The brace group of line 71 is
`lpar ... rpar`. -/
def bashCond (resolve : List Str → Except Err (List Str)) : Cond → Except Err (List (Tok BashPrim))
  | .optionIs opts vals nc any => do
    let vars ← resolve opts
    match vals with
    | [v] => .ok [.cmd (.arrayContains nc v (vars.map (fun x => ⟨x, any⟩)))]
    | vs => .ok (.lpar :: (orJoin (vs.map (fun v =>
        BashPrim.arrayContains nc v (vars.map (fun x => ⟨x, any⟩)))) ++ [.rpar]))
  | .optionMatch opts rx nc any => do
    let vars ← resolve opts
    .ok [.cmd (.arrayMatch nc rx (vars.map (fun x => ⟨x, any⟩)))]
  | .hasOption opts => do
    let vars ← resolve opts
    .ok [.cmd (.anySet vars)]
  | .positionalCount op n => .ok [.cmd (.posCount op n)]
  | .positionalContains nc n vals =>
    .ok [.cmd (.posContains nc (n - 1) (if nc then vals.map lower else vals))]

/-- The loop of the three generators: operators are copied, `(` and `)` become the shell's
group delimiters, conditions are replaced by their code; `bash_when.py` 19-48,
`zsh_when.py` 10-41, `fish_conditions.py` 270-281. -/
def genTokens {α β} (g : α → Except Err (List (Tok β))) : List (Tok α) → Except Err (List (Tok β))
  | [] => .ok []
  | .cmd c :: ts => do
    let a ← g c
    let r ← genTokens g ts
    .ok (a ++ r)
  | .bang :: ts => do let r ← genTokens g ts; .ok (.bang :: r)
  | .lpar :: ts => do let r ← genTokens g ts; .ok (.lpar :: r)
  | .rpar :: ts => do let r ← genTokens g ts; .ok (.rpar :: r)
  | .and :: ts => do let r ← genTokens g ts; .ok (.and :: r)
  | .or :: ts => do let r ← genTokens g ts; .ok (.or :: r)

/-- Outer braces if needed, `bash_when.py` 49-52 and `zsh_when.py` 42-45. -/
def genWithBraces {α β} (g : α → Except Err (List (Tok β))) (ts : List (Tok α)) :
    Except Err (List (Tok β)) := do
  let r ← genTokens g ts
  if needsBraces ts then .ok (.lpar :: (r ++ [.rpar])) else .ok r

/-- `ConditionGenerator.generate`, `bash_when.py` 16-52, as tokens. -/
def bashGenerate (resolve : List Str → Except Err (List Str)) (ts : List (Tok Cond)) :
    Except Err (List (Tok BashPrim)) := genWithBraces (bashCond resolve) ts

/-! ### Zsh and Fish -/

/-- The simple commands that `zsh_when.py` and `fish_conditions.py` emit: a call of a helper
with literal arguments, or a test of the positionals. -/
inductive QueryPrim where
  /-- `query option_is ARGS` (Zsh), `$option_is ARGS` (Fish) -/
  | optionIs (args : List Str)
  | optionMatch (args : List Str)
  | hasOption (args : List Str)
  | posCount (op : CmpOp) (n : Int)
  | posContains (nocase : Bool) (n : Int) (values : List Str)
  deriving DecidableEq, Repr

/-- The argument list of `option_is`/`option_match`: `[-i] [-a] -- OPTIONS -- VALUES`,
`zsh_when.py` 48-59 and 62-74, `fish_conditions.py` 103-115 and 134-146. -/
def queryArgs (opts vals : List Str) (nocase any : Bool) : List Str :=
  (if nocase then [['-', 'i']] else []) ++ (if any then [['-', 'a']] else []) ++
  [['-', '-']] ++ opts ++ [['-', '-']] ++ vals

/-- The `_generate_*` functions, `zsh_when.py` 48-97, and the `get_code` methods,
`fish_conditions.py` 68-70, 103-115, 134-146, 170-173, 189-197. With `nocase`,
Zsh lower-cases the values of `positional_contains` when generating (`zsh_when.py` 95), Fish does
it at run time. -/
def queryCond (lowerValues : Bool) : Cond → Except Err (List (Tok QueryPrim))
  | .optionIs opts vals nc any => .ok [.cmd (.optionIs (queryArgs opts vals nc any))]
  | .optionMatch opts rx nc any => .ok [.cmd (.optionMatch (queryArgs opts [rx] nc any))]
  | .hasOption opts => .ok [.cmd (.hasOption opts)]
  | .positionalCount op n => .ok [.cmd (.posCount op n)]
  | .positionalContains nc n vals =>
    .ok [.cmd (.posContains nc n (if nc && lowerValues then vals.map lower else vals))]

/-- `_generate`, `zsh_when.py` 10-45, as tokens. -/
def zshGenerate (ts : List (Tok Cond)) : Except Err (List (Tok QueryPrim)) :=
  genWithBraces (queryCond true) ts

/-- The `when` part of `Conditions.get_conditions`, `fish_conditions.py` 269-281, as tokens
(`begin` and `;end` are the group delimiters, no outer group is added). -/
def fishGenerate (ts : List (Tok Cond)) : Except Err (List (Tok QueryPrim)) :=
  genTokens (queryCond false) ts

end CC
