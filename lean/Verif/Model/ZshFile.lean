import Verif.Model.ZshScript
import Verif.Model.Capture
import Verif.Model.Helpers
import Verif.Model.StrUtils
import Verif.Spec.ZshText
/-!
# Model of `crazy_complete/zsh.py`: the text of the completion functions

What `Model/ZshScript.lean` leaves out: the text of the functions (`get_code`), with the texts of the conditions
(`zsh_when.py`). Left out: the parts of the script before and after the functions, that is the `#compdef` line, the
notice, the comments, the included files, the code of the helper functions, `zstyle` (see `get_zstyles`), the wrapper
(see `Model/ZshWrapper.lean`) and the last line. `pre` is the prefix of function names.
-/

namespace CC

open ShellGrammar (Tok)

/-! ## Conditions -/

/-- The `_generate_*` functions, `zsh_when.py` 48-97. `values.lower()` lowers the quoted text. -/
def Cond.zshText (pre : Str) : Cond → Str
  | .optionIs opts vals nc any => joinQuoted (realName pre (S "query") :: S "option_is" :: queryArgs opts vals nc any)
  | .optionMatch opts rx nc any => joinQuoted (realName pre (S "option_match") :: queryArgs opts [rx] nc any)
  | .hasOption opts => joinQuoted (realName pre (S "query") :: S "has_option" :: opts)
  | .positionalCount op n => S "(( ${#POSITIONALS[@]} " ++ op.text ++ [' '] ++ intStr n ++ S " ))"
  | .positionalContains nc n vals =>
    if nc then realName pre (S "array_contains") ++ S " \"${(L)POSITIONALS[" ++ intStr n ++ S "]}\" " ++ lower (joinQuoted vals)
    else realName pre (S "array_contains") ++ S " \"${POSITIONALS[" ++ intStr n ++ S "]}\" " ++ joinQuoted vals

/-- The loop of `_generate`, `zsh_when.py` 10-41. -/
def zshWhenPiece (pre : Str) : Tok Cond → Str
  | .cmd c => c.zshText pre
  | .and => S "&&"
  | .or => S "||"
  | .bang => S "!"
  | .lpar => S "{"
  | .rpar => S ";}"

/-- `_generate`, `zsh_when.py` 10-45. -/
def zshWhenText (pre : Str) (ts : List (Tok Cond)) : Str :=
  let r := joinWith [' '] (ts.map (zshWhenPiece pre))
  if needsBraces ts then S "{ " ++ r ++ S "; }" else r

/-! ## The parts of a function, each as its lines -/

/-- The name of the function of a command, `zsh.py` 48. -/
def zshName (pre : Str) (parents : List Cmd) (c : Cmd) : Str :=
  completionFuncname pre ((parents ++ [c]).map (·.data.prog)) []

/-- The part `0-init`, `zsh.py` 120-124. -/
def zshInitLines (pre : Str) : Option Str → List Str
  | none => []
  | some table =>
    [S "local opts=" ++ quote table,
     S "local HAVING_OPTIONS=() OPTION_VALUES=() POSITIONALS=() INCOMPLETE_OPTION=''",
     realName pre (S "query") ++ S " init \"$opts\" \"${words[@]}\""]

/-- The part `1-capture`, `zsh.py` 126-145. -/
def zshCaptureLines (pre : Str) (c : Cmd) : List Str :=
  match zshCaptures c with
  | [] => []
  | cs => (S "local " ++ joinWith [' '] (cs.map (fun e => e.1 ++ S "=()"))) ::
      cs.map (fun e => S "IFS=$\"\\n\" " ++ e.1 ++ S "=($(" ++ realName pre (S "query") ++ S " get_option " ++ joinQuoted e.2 ++ S "))")

/-- One branch, `zsh.py` 155-159. -/
def zshArmLine (pre : Str) (parents : List Cmd) (c d : Cmd) : Str :=
  S "  " ++ joinWith ['|'] ((variations c d).map (fun s => quote s)) ++ S ") " ++ zshName pre (parents ++ [c]) d ++ S "; return $?;;"

/-- The part `2-subcommands`, `zsh.py` 147-162. -/
def zshCaseLines (pre : Str) (parents : List Cmd) (c : Cmd) : List Str :=
  match c.sub with
  | none => []
  | some n =>
    (S "case \"$(" ++ realName pre (S "query") ++ S " get_positional " ++ natStr (positionalNum parents n) ++ S ")\" in") ::
      c.children.map (zshArmLine pre parents c) ++ [S "esac"]

/-- The specs without a condition, `zsh.py` 204-210. -/
def zshPlainLines : List Str → List Str
  | [] => [S "local -a args=()"]
  | specs => S "local -a args=(" :: specs.map (S "  " ++ ·) ++ [S ")"]

/-- A spec with a condition, `zsh.py` 212-215. -/
def zshWhenLines (pre : Str) (ts : List (Tok Cond)) (spec : Str) : List Str :=
  [zshWhenText pre ts ++ S " &&\\", S "  args+=(" ++ spec ++ S ")"]

/-- The lines of a spec in the loop over `args_with_when`, `zsh.py` 194-215. -/
def zshArgLines (pre : Str) (a : ZshArg × Option (List (Tok Cond) × List (Tok QueryPrim))) : List Str :=
  match a.2 with
  | some x => zshWhenLines pre x.1 a.1.spec
  | none => []

/-- The last line, `zsh.py` 217-220. -/
def zshArgumentsLine (stacking : Bool) : Str :=
  if stacking then S "_arguments -S -s -w \"${args[@]}\"" else S "_arguments -S \"${args[@]}\""

/-- The part `3-options`, `zsh.py` 192-222. -/
def zshOptionLines (pre : Str) (stacking : Bool) (args : List (ZshArg × Option (List (Tok Cond) × List (Tok QueryPrim)))) : List Str :=
  if args.isEmpty then []
  else zshPlainLines ((args.filter (fun a => a.2.isNone)).map (·.1.spec)) ++
    args.flatMap (zshArgLines pre) ++
    [zshArgumentsLine stacking]

/-- The parts of a function, `zsh.py` 107-124. -/
def zshParts (pre : Str) (stacking : Bool) (parents : List Cmd) (c : Cmd) (f : ZshFunction) : List (List Str) :=
  [zshInitLines pre f.init, zshCaptureLines pre c, zshCaseLines pre parents c, zshOptionLines pre stacking f.args]

/-- `get_code`, `zsh.py` 224-229. -/
def zshFunctionText (pre : Str) (stacking : Bool) (parents : List Cmd) (c : Cmd) (f : ZshFunction) : Str :=
  zshName pre parents c ++ S "() {\n" ++
    indent (joinWith ['\n', '\n'] (((zshParts pre stacking parents c f).map (joinWith ['\n'])).filter (fun s => !s.isEmpty))) 2 ++
    S "\n}"

/-- The functions in the script, `zsh.py` 257 and 282. -/
def zshFileText (isRegex : Str → Bool) (act : ZshActions) (pre : Str) (stacking : Bool) (root : Cmd) : Except Err Str := do
  let fs ← zshScript isRegex act root
  .ok (outputGet (fs.map (fun e => zshFunctionText pre stacking e.1.1 e.1.2 e.2)))

/-! ## The helper functions that the script calls -/

/-- The calls of the helper functions in conditions, each with its arguments: `query option_is`, `query has_option`,
`option_match` and `array_contains`; `zsh_helpers.py` 96-165 and 327-380 (see `Model/QueryHelpers.lean`). -/
def zshAsk (pre : Str) (rx : Bool → Str → Str → Bool) (p : Parsed) (call : List Str) : Bool :=
  match call with
  | [] => false
  | f :: args =>
    if f = realName pre (S "option_match") then QueryPrim.succeedsZsh rx ⟨p.having, p.positionals⟩ (.optionMatch args)
    else if f = realName pre (S "array_contains") then
      (match args with
        | [] => false
        | key :: values => values.any (fun w => key == w))
    else if f = realName pre (S "query") then
      (match args with
        | [] => false
        | sub :: rest =>
          if sub = S "option_is" then QueryPrim.succeedsZsh rx ⟨p.having, p.positionals⟩ (.optionIs rest)
          else if sub = S "has_option" then QueryPrim.succeedsZsh rx ⟨p.having, p.positionals⟩ (.hasOption rest)
          else false)
    else false

/-- The helper functions, for a command line with the given words, the first of which is the program. What `query` knows
is modelled by `Parsed`; `query init` gets the table and all words (`zsh_helpers.py` 169-180, `Model/ZshQuery.lean`). -/
def zshHelperEnv (pre : Str) (rx : Bool → Str → Str → Bool) (root : Cmd) (q : Str → Str) (words : List Str) : ZshText.Env Parsed where
  query := realName pre (S "query")
  words := words
  init := fun table ws => zshQueryOf root table q ws.tail
  ask := zshAsk pre rx
  positionals := (·.positionals)
  empty := {}

end CC
