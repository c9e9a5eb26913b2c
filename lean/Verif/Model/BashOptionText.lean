import Verif.Model.BashOptions
import Verif.Model.StrUtils
import Verif.Model.Helpers
/-!
# Model of the text of `crazy_complete/bash_option_strings_completion.py` and `crazy_complete/bash_when.py`

`Model/BashOptions.lean` has the same code as tokens; here it is modelled as the text that is written into the script. `pre` is the
prefix of the helper functions (`realName`). The parts of the text of `when` are computed in the same order, but a failure of
`get_options_by_option_strings` comes before the helper is marked as used (that is not visible in the text).
-/

namespace CC

open ShellGrammar (Tok)

/-- `_gen_variables`, `bash_when.py` 103-112. -/
def valueRefs (vars : List Str) (any : Bool) : List Str :=
  vars.map (fun v => if any then S "\"${" ++ v ++ S "[@]}\"" else S "\"${" ++ v ++ S "[@]: -1:1}\"")

/-- The `_gen_*` methods, `bash_when.py` 54-101. `resolve` stands for `get_options_by_option_strings` followed by
`capture_variable`. `lower` on the quoted values is for ASCII. -/
def Cond.bashText (pre : Str) (resolve : List Str → Except Err (List Str)) : Cond → Except Err Str
  | .optionIs opts vals nc any => do
    let vars ← resolve opts
    let func := realName pre (if nc then S "array_contains_nocase" else S "array_contains")
    let conditions := vals.map (fun v => func ++ [' '] ++ quote v ++ [' '] ++ joinWith [' '] (valueRefs vars any))
    match conditions with
    | [c] => .ok c
    | cs => .ok (S "{ " ++ joinWith (S " || ") cs ++ S "; }")
  | .optionMatch opts rx nc any => do
    let vars ← resolve opts
    let func := realName pre (S "array_match")
    .ok (func ++ (if nc then S " -i -- " else S " -- ") ++ quote rx ++ [' '] ++ joinWith [' '] (valueRefs vars any))
  | .hasOption opts => do
    let vars ← resolve opts
    .ok (S "(( " ++ joinWith (S " + ") (vars.map (fun v => S "${#" ++ v ++ S "[@]}")) ++ S " ))")
  | .positionalCount op n => .ok (S "(( ${#POSITIONALS[@]} " ++ op.text ++ [' '] ++ intStr n ++ S " ))")
  | .positionalContains nc n vals =>
    let func := realName pre (S "array_contains")
    if nc then .ok (func ++ S " \"${POSITIONALS[" ++ intStr (n - 1) ++ S "],,}\" " ++ lower (joinQuoted vals))
    else .ok (func ++ S " \"${POSITIONALS[" ++ intStr (n - 1) ++ S "]}\" " ++ joinQuoted vals)

/-- The loop body of `ConditionGenerator.generate`, `bash_when.py` 22-47. -/
def bashWhenPiece (pre : Str) (resolve : List Str → Except Err (List Str)) : Tok Cond → Except Err Str
  | .cmd k => k.bashText pre resolve
  | .and => .ok (S "&&")
  | .or => .ok (S "||")
  | .bang => .ok (S "!")
  | .lpar => .ok (S "{")
  | .rpar => .ok (S ";}")

/-- `ConditionGenerator.generate`, `bash_when.py` 16-52. -/
def bashWhenText (pre : Str) (resolve : List Str → Except Err (List Str)) (ts : List (Tok Cond)) : Except Err Str := do
  let r ← mapE (bashWhenPiece pre resolve) ts
  if needsBraces ts then .ok (S "{ " ++ joinWith [' '] r ++ S "; }") else .ok (joinWith [' '] r)

/-- `"! ${#%s[@]}"`, `bash_option_strings_completion.py` lines 92, 101 and 104. -/
def noneText (v : Str) : Str := S "! ${#" ++ v ++ S "[@]}"

/-- `_Option`, line 15, with texts. -/
structure TextEntry where
  option : Opt
  conditions : List Str
  when_ : Option Str
  deriving DecidableEq

/-- `_get_option_full_condition`, lines 41-49. -/
def TextEntry.full (e : TextEntry) : Str :=
  let w := e.when_.getD []
  if !e.conditions.isEmpty && !w.isEmpty then S "(( " ++ joinWith (S " && ") e.conditions ++ S " )) && " ++ w
  else if !e.conditions.isEmpty then S "(( " ++ joinWith (S " && ") e.conditions ++ S " ))"
  else w

/-- `_generate_option_strings_completion`, lines 52-62, as the list of lines that are joined. -/
def optionStringLines (entries : List TextEntry) : List Str :=
  (groupBy TextEntry.full entries).map (fun g =>
    let s := S "opts+=(" ++ joinQuoted (g.2.flatMap (fun e => offeredStrings e.option)) ++ S ")"
    if g.1.isEmpty then s else g.1 ++ S " && " ++ s)

/-- `_generate_final_check_with_options`, lines 65-74. -/
def finalCheckText (finals : List Str) (entries : List TextEntry) : Str :=
  let r := joinWith ['\n'] (optionStringLines entries)
  if finals.isEmpty then r
  else S "if (( " ++ joinWith (S " && ") finals ++ S " )); then\n" ++ indent r 2 ++ S "\nfi"

/-- The loop body of `generate`, lines 94-115, for an option that is not hidden. -/
def textEntry (isRegex : Str → Bool) (pre : Str) (options : List Opt) (finals : List Str) (o : Opt) : Except Err TextEntry := do
  let conflicting ← conflictingOptions options o
  let conditions := conflicting.map (fun x => noneText (captureVariable x)) ++
    (if o.repeatable = .val false then [noneText (captureVariable o)] else [])
  let conditions := uniq (sortStrs (removeFinals conditions finals))
  let when_ ← match o.when_ with
    | none => .ok none
    | some w => do
      let ts ← parseWhen isRegex w
      let t ← bashWhenText pre (bashResolve options) ts
      .ok (some t)
  .ok ⟨o, conditions, when_⟩

/-- `generate`, lines 77-125; `none` for a command without options. -/
def optionStringsText (isRegex : Str → Bool) (pre : Str) (parents : List Cmd) (c : Cmd) : Except Err (Option Str) :=
  if c.data.options.isEmpty then .ok none
  else do
    let finals := (getFinalOptions parents c).map (fun o => noneText (captureVariable o))
    let entries ← mapE (textEntry isRegex pre c.data.options finals) (c.data.options.filter (fun o => !o.hidden))
    .ok (some (S "if (( ! END_OF_OPTIONS )) && [[ \"$cur\" = -* ]]; then\n" ++
      S "  local -a opts\n" ++
      indent (finalCheckText finals entries) 2 ++ S "\n" ++
      S "  COMPREPLY+=($(compgen -W \"${opts[*]}\" -- \"$cur\"))\n" ++
      S "  [[ ${COMPREPLY-} == *= ]] && compopt -o nospace\n" ++
      S "  return 1\n" ++
      S "fi"))

/-- What the helper functions do that `when` conditions call, `bash_helpers.py` 227-249: `array_contains`,
`array_contains_nocase`, `array_match` (`-i` and `--` are dropped from its arguments). -/
def bashHelperCall (pre : Str) (rx : Bool → Str → Str → Bool) (f : Str) (args : List Str) : Option Bool :=
  if f = realName pre (S "array_contains") then some (args.tail.any (fun w => sameText false (args.headD []) w))
  else if f = realName pre (S "array_contains_nocase") then some (args.tail.any (fun w => sameText true (args.headD []) w))
  else if f = realName pre (S "array_match") then
    let nc := args.head? == some (S "-i")
    let a := if nc then args.tail else args
    let a := if a.head? == some (S "--") then a.tail else a
    some (a.tail.any (fun w => rx nc (a.headD []) w))
  else none

end CC
