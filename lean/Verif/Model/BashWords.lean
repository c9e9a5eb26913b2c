import Verif.Model.Py
/-!
# Model of helper functions of `bash_helpers.py` that work on the current word

The shell functions are modelled as functions on texts. `breaks` is `COMP_WORDBREAKS` as a set of characters
(simplification: the pattern `[$COMP_WORDBREAKS]` would be something else for a value with `]` or `-` in the
middle).
-/

namespace CC

/-- The loops of `dequote`: the outer one, and those for single and double quotes. -/
inductive DqLoop where
  | outer | single | double

/-- The variables of `dequote`: `result`, `___break_pos` (`none` for -1), `___in_quotes`. -/
structure Dequoted where
  result : Str := []
  breakPos : Option Nat := none
  inQuotes : Bool := false
  deriving DecidableEq, Repr

/-- Append a character to the result. -/
def Dequoted.put (d : Dequoted) (c : Char) : Dequoted := { d with result := d.result ++ [c] }

/-- The loops of `dequote`, `bash_helpers.py` 26-53. `${in:$((++i)):1}` is empty behind the end. -/
def dequoteLoop (breaks : List Char) : DqLoop → Str → Dequoted → Dequoted
  | _, [], d => d
  | .outer, c :: cs, d =>
    if c = '\'' then dequoteLoop breaks .single cs { d with inQuotes := true }
    else if c = '"' then dequoteLoop breaks .double cs { d with inQuotes := true }
    else if c = '\\' then
      match cs with
      | [] => d
      | x :: xs => dequoteLoop breaks .outer xs (d.put x)
    else if c ∈ breaks then dequoteLoop breaks .outer cs { d.put c with breakPos := some (d.result.length + 1) }
    else dequoteLoop breaks .outer cs (d.put c)
  | .single, c :: cs, d =>
    if c = '\'' then dequoteLoop breaks .outer cs { d with inQuotes := false }
    else dequoteLoop breaks .single cs (d.put c)
  | .double, c :: cs, d =>
    if c = '"' then dequoteLoop breaks .outer cs { d with inQuotes := false }
    else if c = '\\' then
      match cs with
      | [] => d
      | x :: xs => dequoteLoop breaks .double xs (d.put x)
    else dequoteLoop breaks .double cs (d.put c)

/-- `dequote`, `bash_helpers.py` 23-61. -/
def dequote (breaks : List Char) (s : Str) : Dequoted := dequoteLoop breaks .outer s {}

/-! ## `strip_prefix_keep_quoting` -/

/-- The variable `state` of `strip_prefix_keep_quoting`. -/
inductive StripState where
  | w | sq | dq
  deriving DecidableEq, Repr

/-- The `while` loop, `bash_helpers.py` 657-678: the next character (`sc`), the state, and the rest. -/
def nextChar : StripState → Str → Option Char × StripState × Str
  | st, [] => (none, st, [])
  | .w, c :: cs =>
    if c = '"' then nextChar .dq cs
    else if c = '\'' then nextChar .sq cs
    else if c = '\\' then
      match cs with
      | [] => (none, .w, [])
      | x :: xs => (some x, .w, xs)
    else (some c, .w, cs)
  | .sq, c :: cs => if c = '\'' then nextChar .w cs else (some c, .sq, cs)
  | .dq, c :: cs =>
    if c = '"' then nextChar .w cs
    else if c = '\\' then
      match cs with
      | [] => (none, .dq, [])
      | x :: xs => (some x, .dq, xs)
    else (some c, .dq, cs)

/-- The `for` loop, `bash_helpers.py` 653-681; `none` when a character is not that of the prefix. -/
def stripLoop : Str → StripState → Str → Option (StripState × Str)
  | [], st, s => some (st, s)
  | pc :: p, st, s =>
    match nextChar st s with
    | (some sc, st', r) => if pc = sc then stripLoop p st' r else none
    | (none, _, _) => none

/-- What `echo "$s"` prints, without the newline: nothing if the text is an option of `echo`. -/
def echoed (s : Str) : Str :=
  match s with
  | '-' :: c :: cs => if (c :: cs).all (fun x => x == 'n' || x == 'e' || x == 'E') then [] else s
  | _ => s

/-- The end of `strip_prefix_keep_quoting`, `bash_helpers.py` 680-687. -/
def stripOutput (s : Str) : Option (StripState × Str) → Str
  | none => echoed s
  | some (.w, r) => r
  | some (.sq, r) => '\'' :: r
  | some (.dq, r) => '"' :: r

/-- `$(…)` removes newlines at the end. -/
def dropNewlines (s : Str) : Str := (s.reverse.dropWhile (· == '\n')).reverse

/-- `"$(strip_prefix_keep_quoting "$prefix" "$cur")"`, `bash_helpers.py` 649-688 and 629. -/
def stripPrefix (p s : Str) : Str := dropNewlines (stripOutput s (stripLoop p .w s))

/-! ## `get_last_break_position` and `prefix` -/

/-- The loops of `get_last_break_position`, `bash_helpers.py` 603-622: `i` is the index of the next character. -/
def lastBreakLoop (breaks : List Char) : DqLoop → Nat → Str → Option Nat → Option Nat
  | _, _, [], pos => pos
  | .outer, i, c :: cs, pos =>
    if c = '"' then lastBreakLoop breaks .double (i + 1) cs pos
    else if c = '\'' then lastBreakLoop breaks .single (i + 1) cs pos
    else if c = '\\' then
      match cs with
      | [] => pos
      | _ :: xs => lastBreakLoop breaks .outer (i + 2) xs pos
    else if c ∈ breaks then lastBreakLoop breaks .outer (i + 1) cs (some i)
    else lastBreakLoop breaks .outer (i + 1) cs pos
  | .double, i, c :: cs, pos =>
    if c = '\\' then
      match cs with
      | [] => pos
      | _ :: xs => lastBreakLoop breaks .double (i + 2) xs pos
    else if c = '"' then lastBreakLoop breaks .outer (i + 1) cs pos
    else lastBreakLoop breaks .double (i + 1) cs pos
  | .single, i, c :: cs, pos =>
    if c = '\'' then lastBreakLoop breaks .outer (i + 1) cs pos
    else lastBreakLoop breaks .single (i + 1) cs pos

/-- `get_last_break_position`, `bash_helpers.py` 600-625; `none` for -1. -/
def lastBreakPosition (breaks : List Char) (s : Str) : Option Nat := lastBreakLoop breaks .outer 0 s none

/-- `prefix`, `bash_helpers.py` 627-647: `$COMPREPLY` after the call. `compgen p cur` stands for
`compgen -W "$p" -- "$cur"`, and `func cur` for what the function leaves in `$COMPREPLY`. -/
def prefixHelper (breaks : List Char) (compgen : Str → Str → List Str) (func : Str → List Str) (p cur : Str) : List Str :=
  if stripPrefix p cur = cur then compgen p cur
  else
    let r := func (stripPrefix p cur)
    if (lastBreakPosition breaks cur).isNone then r.map (p ++ ·) else r

end CC
