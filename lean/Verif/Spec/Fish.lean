/-!
# How Fish reads words (specification, independent of the model)

Reference: the Fish manual, "Quotes" and "Escaping characters": inside single quotes only
`\'` and `\\` are escapes; inside double quotes only `\"`, `\$`, `\\` and backslash-newline are,
and `$name` is expanded. In particular a backquote has no meaning, and a backslash before it is
kept inside quotes.
-/

namespace Fish

/-- Reading position, as in `Posix.Mode`, with extra states for a backslash in single quotes and for one
between words. -/
inductive Mode where
  | gap | word | sq | sqEsc | dq | dqEsc | gapEsc | esc
  deriving DecidableEq, Repr

/-- Characters with a meaning of their own outside quotes. -/
def special : List Char :=
  ['|', '&', ';', '<', '>', '(', ')', '$', '*', '?', '[', ']', '#', '~', '{', '}', '^', '!']

def blank (c : Char) : Bool := c == ' ' || c == '\t' || c == '\n'

/-- Read a text into words; fails on anything that is not taken literally. Outside quotes, a backslash
before a newline continues the line, and `\t` is a tab; the generators write no other backslash there,
and any other is rejected. -/
def read : Mode → List Char → List Char → Option (List (List Char))
  | .gap, _, [] => some []
  | .word, acc, [] => some [acc]
  | .sq, _, [] => none
  | .sqEsc, _, [] => none
  | .dq, _, [] => none
  | .dqEsc, _, [] => none
  | .gapEsc, _, [] => none
  | .esc, _, [] => none
  | .gap, _, c :: cs =>
    if blank c then read .gap [] cs
    else if c = '\'' then read .sq [] cs
    else if c = '"' then read .dq [] cs
    else if c = '\\' then read .gapEsc [] cs
    else if special.contains c then none
    else read .word [c] cs
  | .word, acc, c :: cs =>
    if blank c then (read .gap [] cs).map (acc :: ·)
    else if c = '\'' then read .sq acc cs
    else if c = '"' then read .dq acc cs
    else if c = '\\' then read .esc acc cs
    else if special.contains c then none
    else read .word (acc ++ [c]) cs
  | .sq, acc, c :: cs =>
    if c = '\'' then read .word acc cs
    else if c = '\\' then read .sqEsc acc cs
    else read .sq (acc ++ [c]) cs
  | .sqEsc, acc, c :: cs =>
    if c = '\'' ∨ c = '\\' then read .sq (acc ++ [c]) cs
    else read .sq (acc ++ ['\\', c]) cs
  | .dq, acc, c :: cs =>
    if c = '"' then read .word acc cs
    else if c = '\\' then read .dqEsc acc cs
    else if c = '$' then none
    else read .dq (acc ++ [c]) cs
  | .dqEsc, acc, c :: cs =>
    if c = '$' ∨ c = '"' ∨ c = '\\' then read .dq (acc ++ [c]) cs
    else if c = '\n' then read .dq acc cs
    else read .dq (acc ++ ['\\', c]) cs
  | .gapEsc, _, c :: cs =>
    if c = '\n' then read .gap [] cs
    else if c = 't' then read .word ['\t'] cs
    else none
  | .esc, acc, c :: cs =>
    if c = '\n' then read .word acc cs
    else if c = 't' then read .word (acc ++ ['\t']) cs
    else none

/-- The words of a complete text. -/
def words (t : List Char) : Option (List (List Char)) := read .gap [] t

/-- Characters of a variable name. -/
def varChar (c : Char) : Bool := c.isAlphanum || c == '_'

/-- Position inside a double-quoted text with variable expansion. -/
inductive DqMode where
  | normal | esc | var (name : List Char)

/-- What the body of a double-quoted text (without the two quotes) expands to, given the values
of the variables. `none`: the body contains an unescaped quote, a dangling backslash, or a `$`
that does not start a variable name. -/
def dqExpand (env : List Char → List Char) : DqMode → List Char → Option (List Char)
  | .normal, [] => some []
  | .esc, [] => none
  | .var n, [] => if n = [] then none else some (env n)
  | .normal, c :: cs =>
    if c = '"' then none
    else if c = '\\' then dqExpand env .esc cs
    else if c = '$' then dqExpand env (.var []) cs
    else (dqExpand env .normal cs).map (c :: ·)
  | .esc, c :: cs =>
    if c = '$' ∨ c = '"' ∨ c = '\\' then (dqExpand env .normal cs).map (c :: ·)
    else if c = '\n' then dqExpand env .normal cs
    else (dqExpand env .normal cs).map (fun r => '\\' :: c :: r)
  | .var n, c :: cs =>
    if varChar c then dqExpand env (.var (n ++ [c])) cs
    else if n = [] then none
    else if c = '"' then none
    else if c = '\\' then (dqExpand env .esc cs).map (env n ++ ·)
    else if c = '$' then (dqExpand env (.var []) cs).map (env n ++ ·)
    else (dqExpand env .normal cs).map (fun r => env n ++ c :: r)

end Fish
