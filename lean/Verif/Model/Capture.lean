import Verif.Model.OptionTypes
import Verif.Model.BashParser
/-!
# Model of the capturing of options

`bash_parser.py` and `bash_parser_v2.py` (see `Model/BashParser.lean`), `zsh.py` 126-145 with `get_option` of
`zsh_helpers.py`, and `fish_prepare.py` 54-70 with `capture_option` of `fish_helpers.py`. A variable is a list of
values. Taken literally: option strings and variable names in the generated code (Fish does not quote them).
-/

namespace CC

/-! ## Bash -/

/-- The array of a variable after the parser has run: `+=` appends, `bash_parser.py` 108-154 and
`bash_parser_v2.py` 48-100. -/
def bashArray (log : List (Str × Str)) (v : Str) : List Str := (log.filter (fun e => e.1 == v)).map (·.2)

/-! ## Zsh -/

/-- `query get_option`, `zsh_helpers.py` 75-92: a line for each option recorded that is among the arguments. The loop
starts with the index 0, for which Zsh gives an empty option and an empty value. -/
def zshGetOption (p : Parsed) (strings : List Str) : Str :=
  (if strings.contains [] then ['\n'] else []) ++
    (p.having.filter (fun o => strings.contains o.1)).flatMap (fun o => o.2 ++ ['\n'])

/-- The value of `IFS` after `IFS=$"\n"`, `zsh.py` 133: Zsh has no translated strings, the dollar sign is kept and
`\n` is no newline. (With translated strings, as in Bash, the dollar sign would be missing.) -/
def zshIFS : List Char := ['$', '\\', 'n']

/-- Split a text at characters. -/
def splitAtAny (ifs : List Char) : Str → List Str
  | [] => [[]]
  | c :: cs =>
    if ifs.contains c then [] :: splitAtAny ifs cs
    else match splitAtAny ifs cs with
      | [] => [[c]]
      | w :: ws => (c :: w) :: ws

/-- `($(...))` in Zsh: the newlines at the end are removed, the text is split at the characters of `IFS`, and empty
words are dropped. -/
def zshSubstitution (ifs : List Char) (text : Str) : List Str :=
  (splitAtAny ifs (text.reverse.dropWhile (· == '\n')).reverse).filter (fun w => !w.isEmpty)

/-- The captured options of a function, `_generate_option_capture`, `zsh.py` 126-137. -/
def zshCaptures (c : Cmd) : List (Str × List Str) :=
  c.data.options.filterMap (fun o => match o.capture with
    | some (a :: as) => some (a :: as, o.strings)
    | _ => none)

/-- The variable `v` after the code of `_generate_option_capture`, `zsh.py` 126-145, if it sets it. -/
def zshCaptured (ifs : List Char) (c : Cmd) (p : Parsed) (v : Str) : Option (List Str) :=
  (((zshCaptures c).filter (fun e => e.1 == v)).map (fun e => zshSubstitution ifs (zshGetOption p e.2))).getLast?

/-! ## Fish -/

/-- `capture_option`, `fish_helpers.py` 490-510. -/
def fishCaptureOption (p : Parsed) (strings : List Str) : List Str :=
  (p.having.filter (fun o => strings.contains o.1)).map (·.2)

/-- The calls of `capture_option`, `_get_capture_code`, `fish_prepare.py` 54-70. -/
def fishCaptures (root : Cmd) : List (Str × List Str) :=
  (root.walk []).flatMap (fun e => (getOptions e.1 e.2 false false).filterMap (fun o => o.capture.map (·, o.strings)))

/-- The variable `v` after the function that prepares has run, `fish_prepare.py` 73-97, if it is set there (`set -g`
replaces the value). -/
def fishCaptured (root : Cmd) (p : Parsed) (v : Str) : Option (List Str) :=
  (((fishCaptures root).filter (fun e => e.1 == v)).map (fun e => fishCaptureOption p e.2)).getLast?

end CC
