import Verif.Model.Shell
import Verif.Model.StrUtils
import Verif.Model.ZshUtils
import Verif.Model.BashParser
/-!
# Model of the `choices` completer: `bash_complete.py`, `zsh_complete.py`, `fish_complete.py`

The completers give a piece of text that is either put in place (`inline`) or becomes the body of a
function whose name is put in place (`helpers.add_dynamic_func`, see `Model/Generation.lean`).
-/

namespace CC

/-- A word or a description: the validator lets strings and integers pass (`scheme_validator.py` 193-205). -/
inductive Choice where
  | str (s : Str)
  | int (i : Int)
  deriving DecidableEq

/-- `str(item)`. -/
def Choice.text : Choice → Str
  | .str s => s
  | .int i => intStr i

/-- The truth value of a description. -/
def Choice.truthy : Choice → Bool
  | .str s => !s.isEmpty
  | .int i => i != 0

/-- The argument of `choices`: a list of words, or a dictionary from words to descriptions (or `None`). -/
inductive Choices where
  | list (words : List Choice)
  | table (entries : List (Choice × Option Choice))

/-- The words: iteration over a list, or over the keys of a dictionary. -/
def Choices.words : Choices → List Choice
  | .list l => l
  | .table t => t.map (·.1)

/-- Where the completer puts its text. -/
inductive Placed where
  | inline (text : Str)
  | function (body : Str)
  deriving DecidableEq

/-- `CHOICES_INLINE_THRESHOLD`, `zsh_complete.py` 16, `fish_complete.py` 13. -/
def inlineThreshold : Nat := 80

/-! ## Bash -/

/-- `CompgenW.get_code`, `bash_complete.py` 90-107. `valuesFunc` is what
`ctxt.helpers.use_function('values')` gives. `any(filter(…))` is about the truth of the strings that need
quotes. -/
def bashChoices (valuesFunc : Str) (c : Choices) (append : Bool) : Str :=
  let values := c.words.map Choice.text
  if (values.filter needsQuote).any (fun v => !v.isEmpty) then
    valuesFunc ++ S " " ++ (if append then S "-a " else []) ++ S "-- " ++ joinQuoted values
  else
    S "COMPREPLY" ++ (if append then S "+" else []) ++ S "=($(compgen -W " ++
      quote (joinWith [' '] values) ++ S " -- \"$cur\"))"

/-- The helper function `values`, `bash_helpers.py` 8-21: `$COMPREPLY` after a call with arguments `args`.
`q` is what `printf '%q'` prints. -/
def bashValues (q : Str → Str) (cur : Str) (before args : List Str) : List Str :=
  let append := args.head? = some (S "-a")
  let args := if append then args.tail else args
  let args := if args.head? = some (S "--") then args.tail else args
  (if append then before else []) ++ (args.filter (fun w => startsWith w cur)).map q

/-! ## Zsh -/

/-- `escape_colon(c)` in `_list_function`: an integer has no `replace`. -/
def escapeColonChoice : Choice → Except Err Str
  | .str s => .ok (escapeColon s)
  | .int _ => .error .crash

/-- `ZshCompleteChoices._list_function`, `zsh_complete.py` 80-92: the body of the function. `metavar` is
`ctxt.option.metavar or ''`. -/
def zshListFunction (metavar : Str) (lineLength : Int) (l : List Choice) : Except Err Str := do
  let quoted ← mapE (fun c => do let e ← escapeColonChoice c; .ok (quote e)) l
  .ok (S "local items=(\n" ++ indent (joinWithWrap [' '] ['\n'] (lineLength - 2) quoted []) 2 ++
    S "\n)\n\n" ++ S "_describe -- " ++ quote metavar ++ S " items")

/-- `ZshCompleteChoices._list_action_string`, `zsh_complete.py` 71-78. -/
def zshListAction (metavar : Str) (lineLength : Int) (l : List Choice) : Except Err Placed :=
  let action := quote (S "(" ++ joinWith [' '] (l.map (fun c => quote c.text)) ++ S ")")
  if action.length ≤ inlineThreshold then .ok (.inline action)
  else do let f ← zshListFunction metavar lineLength l; .ok (.function f)

/-- `str0`, `zsh_complete.py` 95-96 and `fish_complete.py` 107-108. -/
def str0 : Option Choice → Str
  | none => []
  | some c => c.text

/-- A line of the items in `_dict_function`, `zsh_complete.py` 122-128. -/
def zshDictLine (e : Choice × Option Choice) : Str :=
  S "  " ++ quote (escapeColon e.1.text) ++
    (match e.2 with
     | some d => if d.truthy then S ":" ++ quote d.text else []
     | none => []) ++ S "\n"

/-- `ZshCompleteChoices._dict_function`, `zsh_complete.py` 118-133. -/
def zshDictFunction (metavar : Str) (t : List (Choice × Option Choice)) : Str :=
  S "local items=(\n" ++ t.flatMap zshDictLine ++ S ")\n\n" ++ S "_describe -- " ++ quote metavar ++ S " items"

/-- An item of `_dict_action_string`, `zsh_complete.py` 103-107. -/
def zshDictItem (e : Choice × Option Choice) : Str :=
  quote e.1.text ++ (if (str0 e.2).isEmpty then [] else S ":" ++ quote (str0 e.2))

/-- `ZshCompleteChoices._dict_action_string`, `zsh_complete.py` 94-116. -/
def zshDictAction (metavar : Str) (t : List (Choice × Option Choice)) : Placed :=
  let colon := (t.map (fun e => e.1.text) ++ t.map (fun e => str0 e.2)).any (fun s => s.contains ':')
  let action := quote (S "((" ++ joinWith [' '] (t.map zshDictItem) ++ S "))")
  if !colon && decide (action.length ≤ inlineThreshold) then .inline action
  else .function (zshDictFunction metavar t)

/-- `ZshCompleteChoices.get_action_string`, `zsh_complete.py` 135-139. -/
def zshChoices (metavar : Str) (lineLength : Int) : Choices → Except Err Placed
  | .list l => zshListAction metavar lineLength l
  | .table t => .ok (zshDictAction metavar t)

/-- `ZshCompleteChoices.get_function`, `zsh_complete.py` 141-145: the body of the function. -/
def zshChoicesFunction (metavar : Str) (lineLength : Int) : Choices → Except Err Str
  | .list l => zshListFunction metavar lineLength l
  | .table t => .ok (zshDictFunction metavar t)

/-! ## Fish -/

/-- `{str(item): str0(desc) for …}`, `fish_complete.py` 110: a later entry with the same text replaces the
description of the earlier one. -/
def stringified (t : List (Choice × Option Choice)) : List (Str × Str) :=
  t.foldl (fun acc e =>
    if acc.any (fun a => a.1 == e.1.text)
    then acc.map (fun a => if a.1 == e.1.text then (a.1, str0 e.2) else a)
    else acc ++ [(e.1.text, str0 e.2)]) []

/-- `FishCompleteChoices._get_inline_for_list` and `_get_inline_for_dict`, `fish_complete.py` 103-113. -/
def fishInline : Choices → Str
  | .list l => joinWith [' '] (l.map (fun c => quote c.text))
  | .table t => joinWith [' '] ((stringified t).map (fun e => quote e.1 ++ S "\\t" ++ quote e.2))

/-- `s.rstrip(' \\\n')`. -/
def rstripContinuation (s : Str) : Str :=
  (s.reverse.dropWhile (fun c => c == ' ' || c == '\\' || c == '\n')).reverse

/-- `FishCompleteChoices.get_code`, `fish_complete.py` 115-127 and 141-144. -/
def fishCode (lineLength : Int) : Choices → Str
  | .list l =>
    rstripContinuation (S "printf '%s\\n' \\\n" ++
      indent (joinWithWrap [' '] (S " \\\n") (lineLength - 2) (l.map (fun c => quote c.text)) []) 2)
  | .table t =>
    rstripContinuation (S "printf '%s\\t%s\\n' \\\n" ++
      t.flatMap (fun e => S "  " ++ quote e.1.text ++ S " " ++ quote (str0 e.2) ++ S " \\\n"))

/-- `FishCompleteChoices.get_args`, `fish_complete.py` 129-139: the argument of `-a`. A function is called
in a command substitution, `(name)`. -/
def fishChoices (lineLength : Int) (c : Choices) : Placed :=
  if (fishInline c).length ≤ inlineThreshold then .inline (fishInline c)
  else .function (fishCode lineLength c)

end CC
