import Verif.Model.ZshUtils
import Verif.Model.OptionTypes
import Verif.Model.QueryHelpers
import Verif.Model.BashParser
/-!
# Model of `crazy_complete/zsh.py`: the completion functions of the generated script

A function is modelled by the option table it passes to `query init` (if it does), the subcommands it calls, and the
specs it passes to `_arguments`. Left out: `zstyle` lines, the wrapper (`zsh_wrapper.py`), the variables set by
captured options, `option_stacking`, and the code of completers (`zsh_complete.py`), whose action strings are
parameters. The call of another completion function is modelled as a call of the function of that command; see C44
for the names.
-/

namespace CC

open ShellGrammar (Tok run)

/-- The action strings that the completers give (`_complete`, `zsh.py` 58-60). -/
structure ZshActions where
  option : Opt → Str
  positional : Pos → Str
  choices : List Str → Str

/-- What a spec is for: an option of a command, a positional of a command, or the subcommands of a command (with
the parents of the command), or the command that is wrapped. -/
inductive ZshTarget where
  | option (x : Cmd) (o : Opt)
  | positional (qs : List Cmd) (x : Cmd) (p : Pos)
  | subcommands (qs : List Cmd) (x : Cmd)
  | wraps

/-- `Arg`, `zsh.py` 21. -/
structure ZshArg where
  target : ZshTarget
  when_ : Option Str
  spec : Str

/-- The options that a function passes to `_arguments`, each with the command that it belongs to, `zsh.py` 167-170
(`get_options`, `cli.py` 167-222). -/
def zshOptions (parents : List Cmd) (c : Cmd) : List (Cmd × Opt) :=
  let cmds := if c.data.inheritOptions = .val false then [c] else parents ++ [c]
  (getterRun false cmds.reverse).flatMap (fun e => e.2.2.map (fun o => (e.2.1, o)))

/-- `_complete_option`, `zsh.py` 62-82. -/
def zshOptionArg (act : ZshActions) (e : Cmd × Opt) : Except Err ZshArg := do
  let z ← zshOption e.1.data.options e.2 (if truthyList e.2.complete then some (act.option e.2) else none)
  let spec ← makeOptionSpec z
  .ok ⟨.option e.1 e.2, e.2.when_, spec⟩

/-- `help or metavar or ' '`, `zsh.py` 101. -/
def positionalMessage (p : Pos) : Str :=
  match p.help, p.metavar with
  | some (a :: as), _ => a :: as
  | _, some (b :: bs) => b :: bs
  | _, _ => [' ']

/-- `_complete_positional`, `zsh.py` 97-105. -/
def zshPositionalArg (act : ZshActions) (qs : List Cmd) (x : Cmd) (p : Pos) : Except Err ZshArg := do
  let spec ← makePositionalSpec (positionalNum qs p.number) p.repeatable (positionalMessage p) (act.positional p)
  .ok ⟨.positional qs x p, p.when_, spec⟩

/-- `_complete_subcommands`, `zsh.py` 84-95, with the counter after it was raised. The names are those of `get_choices`,
`cli.py` 879-888 (there a dictionary, in which equal names are one). -/
def zshSubArg (act : ZshActions) (counter : Nat) (qs : List Cmd) (x : Cmd) (n : Nat) : Except Err ZshArg := do
  let spec ← makePositionalSpec (positionalNum qs n) false (S "command" ++ natStr counter)
    (act.choices (x.children.flatMap (fun d => d.data.prog :: d.data.aliases)))
  .ok ⟨.subcommands qs x, none, spec⟩

/-- The specs of positionals and subcommands of the parents and of the command itself, `zsh.py` 175-187. -/
def zshNormalArgs (act : ZshActions) : Nat → List Cmd → List Cmd → Except Err (List ZshArg)
  | _, _, [] => .ok []
  | k, qs, x :: rest => do
    let ps ← mapE (zshPositionalArg act qs x) x.data.positionals
    match x.sub with
    | none => do
      let r ← zshNormalArgs act k (qs ++ [x]) rest
      .ok (ps ++ r)
    | some n => do
      let s ← zshSubArg act (k + 1) qs x n
      let r ← zshNormalArgs act (k + 1) (qs ++ [x]) rest
      .ok (ps ++ s :: r)

/-- The specs of a function, `zsh.py` 164-190. -/
def zshArgs (act : ZshActions) (parents : List Cmd) (c : Cmd) : Except Err (List ZshArg) := do
  let os ← mapE (zshOptionArg act) (zshOptions parents c)
  let ns ← zshNormalArgs act 0 [] (parents ++ [c])
  .ok (os ++ ns ++ (match c.data.wraps with
    | some (_ :: _) => [⟨.wraps, none, S "'::*'"⟩]
    | _ => []))

/-- The condition code of a spec, `zsh.py` 194-215. A condition is used if it is not `None`, also if it is empty. -/
def zshCode (isRegex : Str → Bool) (a : ZshArg) : Except Err (Option (List (Tok Cond) × List (Tok QueryPrim))) :=
  match a.when_ with
  | none => .ok none
  | some w => do
    let ts ← parseWhen isRegex w
    let code ← zshGenerate ts
    .ok (some (ts, code))

/-- A condition whose code calls `query`: `_generate_option_is`, `_generate_option_match` and `_generate_has_option`,
`zsh_when.py` 47-83, but not the two conditions on positionals. -/
def Cond.usesQuery : Cond → Bool
  | .optionIs .. => true
  | .optionMatch .. => true
  | .hasOption .. => true
  | _ => false

/-- Whether any condition of the tokens calls `query`. -/
def tokensUseQuery (ts : List (Tok Cond)) : Bool := ts.any (fun t => match t with | .cmd c => c.usesQuery | _ => false)

/-- A completion function: the option table passed to `query init`, if `query` is used, and the specs with the code of
their conditions. -/
structure ZshFunction where
  init : Option Str
  args : List (ZshArg × Option (List (Tok Cond) × List (Tok QueryPrim)))

/-- `query.used`, `zsh.py` 24-38: set for captured options, for subcommands, and by conditions. -/
def zshQueryUsed (c : Cmd) (args : List (ZshArg × Option (List (Tok Cond) × List (Tok QueryPrim)))) : Bool :=
  c.data.options.any (fun o => match o.capture with | some (_ :: _) => true | _ => false) || c.sub.isSome ||
    args.any (fun a => match a.2 with | some x => tokensUseQuery x.1 | none => false)

/-- `_generate_completion_code`, `zsh.py` 107-124, for the command with the given parents. The option table has the options
of the parents, whether they are inherited or not (`get_query_option_strings`). -/
def zshFunction (isRegex : Str → Bool) (act : ZshActions) (parents : List Cmd) (c : Cmd) : Except Err ZshFunction := do
  let as ← zshArgs act parents c
  let args ← mapE (fun a => do let code ← zshCode isRegex a; .ok (a, code)) as
  .ok { init := if zshQueryUsed c args then some (queryOptionStrings (getOptions parents c true false)) else none
        args := args }

/-- All functions of the script, `zsh.py` 257. -/
def zshScript (isRegex : Str → Bool) (act : ZshActions) (root : Cmd) : Except Err (List ((List Cmd × Cmd) × ZshFunction)) :=
  mapE (fun e => do let f ← zshFunction isRegex act e.1 e.2; .ok (e, f)) (root.walk [])

/-- The words that `_arguments` gets, `zsh.py` 194-222: first the specs without a condition, then those whose
condition succeeds. -/
def ZshFunction.elements (rx : Bool → Str → Str → Bool) (p : Parsed) (f : ZshFunction) : List Str :=
  (f.args.filter (fun a => a.2.isNone)).map (·.1.spec) ++
    (f.args.filter (fun a => match a.2 with
      | some x => run (QueryPrim.succeedsZsh rx ⟨p.having, p.positionals⟩) x.2 == some true
      | none => false)).map (·.1.spec)

/-- Where a run of the script ends: the command whose function calls `_arguments`, its parents, what `query`
knows there, and the words for `_arguments`. -/
structure ZshEnd where
  parents : List Cmd
  cmd : Cmd
  parsed : Parsed
  elements : List Str

mutual
/-- The function of a command, `zsh.py` 107-162. `init` is `query init` for the words on the command line. The variables
of `query` are local to a function that calls `query init`; other functions see those of their callers. -/
def Cmd.zshRun (F : List Cmd → Cmd → Except Err ZshFunction) (rx : Bool → Str → Str → Bool) (init : Str → Parsed) (p : Parsed)
    (parents : List Cmd) : Cmd → Except Err ZshEnd
  | .node d s ch => do
    let f ← F parents (.node d s ch)
    let p := (f.init.map init).getD p
    let call ← (match s with
      | some n => Cmd.zshCall F rx init p parents (.node d s ch) (zshIndex p.positionals (positionalNum parents n)) ch
      | none => .ok none)
    .ok (call.getD ⟨parents, .node d s ch, p, f.elements rx p⟩)
/-- `_generate_subcommand_call`, `zsh.py` 147-162: the first subcommand with that name is called. -/
def Cmd.zshCall (F : List Cmd → Cmd → Except Err ZshFunction) (rx : Bool → Str → Str → Bool) (init : Str → Parsed) (p : Parsed)
    (parents : List Cmd) (c : Cmd) (w : Str) : List Cmd → Except Err (Option ZshEnd)
  | [] => .ok none
  | d :: ds =>
    if (variations c d).contains w then do
      let r ← d.zshRun F rx init p (parents ++ [c])
      .ok (some r)
    else Cmd.zshCall F rx init p parents c w ds
end

/-- The script for the words of a command line without the program; `q` removes quotes. All words are passed, the one at
the cursor too. Before the first `query init` the variables of `query` are unset, which is the same as empty. -/
def zshComplete (isRegex : Str → Bool) (act : ZshActions) (rx : Bool → Str → Str → Bool) (root : Cmd) (q : Str → Str)
    (words : List Str) : Except Err ZshEnd :=
  root.zshRun (zshFunction isRegex act) rx (fun opts => zshQueryOf root opts q words) {} []

end CC
