import Verif.Model.Cli
import Verif.Model.Shell
import Verif.Model.Algo
/-!
# Model of `crazy_complete/zsh_utils.py`

Not here: `make_file_extension_pattern` (see `Model/Extensions.lean`).
-/

namespace CC

/-- `escape_colon`, `zsh_utils.py` 15-18. -/
def escapeColon (s : Str) : Str := replaceChar ':' ['\\', ':'] s

/-- `escape_square_brackets`, `zsh_utils.py` 21-24. -/
def escapeSquareBrackets (s : Str) : Str := replaceChar ']' ['\\', ']'] (replaceChar '[' ['\\', '['] s)

/-- Where the loop of `escape_colon_in_quoted_string` is: outside quotes, in a quoted part with the text
read so far (`parse_shell_single_quote`, `parse_shell_double_quote`, `string_stream.py` 45-88), or after
a backslash in double quotes. -/
inductive QuoteMode where
  | plain
  | single (sub : Str)
  | double (sub : Str)
  | doubleEsc (sub : Str)

/-- The loop of `escape_colon_in_quoted_string`, `zsh_utils.py` 36-47. -/
def escapeColonGo : QuoteMode → Str → Except Err Str
  | .plain, [] => .ok []
  | .plain, c :: cs =>
    if c = '\'' then escapeColonGo (.single []) cs
    else if c = '"' then escapeColonGo (.double []) cs
    else if c = ':' then do let r ← escapeColonGo .plain cs; .ok (['\\', '\\', ':'] ++ r)
    else do let r ← escapeColonGo .plain cs; .ok (c :: r)
  | .single _, [] => .error .valueError
  | .single sub, c :: cs =>
    if c = '\'' then do
      let r ← escapeColonGo .plain cs
      .ok (['\''] ++ replaceChar ':' ['\\', ':'] sub ++ ['\''] ++ r)
    else escapeColonGo (.single (sub ++ [c])) cs
  | .double _, [] => .error .valueError
  | .double sub, c :: cs =>
    if c = '\\' then escapeColonGo (.doubleEsc sub) cs
    else if c = '"' then do
      let r ← escapeColonGo .plain cs
      .ok (['"'] ++ replaceChar ':' ['\\', '\\', ':'] sub ++ ['"'] ++ r)
    else escapeColonGo (.double (sub ++ [c])) cs
  | .doubleEsc _, [] => .error .valueError
  | .doubleEsc sub, c :: cs => escapeColonGo (.double (sub ++ [c])) cs

/-- `escape_colon_in_quoted_string`, `zsh_utils.py` 27-49. -/
def escapeColonQuoted (s : Str) : Except Err Str :=
  if ':' ∈ s then escapeColonGo .plain s else .ok s

/-- The arguments of `make_option_spec`, `zsh_utils.py` 52-63. `complete` is the truth value of the
argument; `repeatable` too. -/
structure ZshOption where
  optionStrings : List Str
  conflicting : List Str := []
  description : Option Str := none
  complete : Bool := false
  optionalArg : Bool := false
  repeatable : Bool := false
  hidden : Bool := false
  final : Bool := false
  metavar : Option Str := none
  action : Str := []
  longSep : LongSep := .both

/-- `not_options`, `zsh_utils.py` 82-92. -/
def ZshOption.notOptions (o : ZshOption) : List Str :=
  if o.final then [S "- *"]
  else (sortStrs o.conflicting).map escapeColon ++
    (if o.repeatable then [] else (sortStrs o.optionStrings).map escapeColon)

/-- `opts`, `zsh_utils.py` 102-112. An unknown `long_opt_arg_sep` leaves `opts` unset. -/
def ZshOption.opts (o : ZshOption) : Except Err (List Str) :=
  let add (short long : Str) : List Str := o.optionStrings.map (fun s => if s.length = 2 then s ++ short else s ++ long)
  if o.complete && o.optionalArg then .ok (add ['-'] ['=', '-'])
  else if o.complete then match o.longSep with
    | .both => .ok (add ['+'] ['='])
    | .equals => .ok (add ['+'] ['=', '-'])
    | .space => .ok (add ['+'] [])
    | .inherit => .error .crash
  else .ok o.optionStrings

/-- The text in front of the option strings, `zsh_utils.py` 77-99. -/
def ZshOption.front (o : ZshOption) : Str :=
  (if o.hidden then S "'!'" else []) ++
  (if o.notOptions.isEmpty then [] else quote (['('] ++ joinWith [' '] (uniq o.notOptions) ++ [')'])) ++
  (if o.repeatable then S "'*'" else [])

/-- The description in the spec, `zsh_utils.py` 119-121. -/
def descriptionText : Option Str → Str
  | none => []
  | some d => quote (['['] ++ escapeColon (escapeSquareBrackets d) ++ [']'])

/-- The text after the option strings, `zsh_utils.py` 119-129. -/
def ZshOption.back (o : ZshOption) : Except Err Str := do
  let descr := descriptionText o.description
  if o.complete then
    let action ← escapeColonQuoted o.action
    .ok (descr ++ [':'] ++ quote (escapeColon (o.metavar.getD [' '])) ++ [':'] ++ action)
  else .ok descr

/-- `make_option_spec`, `zsh_utils.py` 52-131. -/
def makeOptionSpec (o : ZshOption) : Except Err Str := do
  let opts ← o.opts
  let names := match opts with
    | [s] => s
    | _ => ['{'] ++ joinWith [','] opts ++ ['}']
  let back ← o.back
  .ok (o.front ++ names ++ back)

/-- `make_positional_spec`, `zsh_utils.py` 134-158. -/
def makePositionalSpec (number : Nat) (repeatable : Bool) (description action : Str) : Except Err Str := do
  let num := if repeatable then S "'*'" else natStr number
  let desc := quote (escapeColon description)
  if action = S "_normal" then .ok (num ++ [':', ':'] ++ desc ++ [':'] ++ action)
  else do
    let a ← escapeColonQuoted action
    .ok (num ++ [':'] ++ desc ++ [':'] ++ a)

/-- The action string that the completer gives for an option: `none` if the option takes no argument.
The completers themselves are not modelled here. -/
abbrev ZshAction := Option Str

/-- The call of `make_option_spec`, `zsh.py` 62-82, for an option of a command with the given options;
`get_conflicting_option_strings`, `cli.py` 804-815. `repeatable` and `long_opt_arg_sep` are read after the
configuration was applied; an `inherit` that is left is a true value in Python. -/
def zshOption (options : List Opt) (o : Opt) (action : ZshAction) : Except Err ZshOption := do
  let conf ← conflictingOptions options o
  .ok { optionStrings := o.strings, conflicting := conf.flatMap (·.strings), description := o.help,
        complete := truthyList o.complete, optionalArg := o.optionalArg,
        repeatable := decide (o.repeatable ≠ .val false), hidden := o.hidden, final := o.final,
        metavar := o.metavar, action := action.getD [], longSep := o.longSep }

end CC
