/-!
# How a POSIX shell reads words (specification, independent of the model)

`Posix.read` splits a text into words doing quote removal. It *fails* (`none`) on any
character that the shell would not take literally at that place: operators, expansions,
patterns, comments, tilde, braces, history; and on unterminated quotes. So a successful
reading means that no shell feature other than quoting was involved.
Reference: POSIX.1-2017, XCU 2.2 (Quoting) and 2.3 (Token Recognition).
-/

namespace Posix

/-- Reading position: between words, in a word outside quotes, in single quotes, in
double quotes, and right after an unquoted / a double-quoted backslash. -/
inductive Mode where
  | gap | word | sq | dq | esc | dqEsc
  deriving DecidableEq, Repr

/-- Characters that have a meaning of their own outside quotes (besides quotes and blanks). -/
def special : List Char :=
  ['|', '&', ';', '<', '>', '(', ')', '$', '`', '*', '?', '[', ']', '#', '~', '!', '{', '}', '^']

/-- Blanks and newline separate words. -/
def blank (c : Char) : Bool := c == ' ' || c == '\t' || c == '\n'

/-- Read a text into words; `acc` is the part of the current word read so far. -/
def read : Mode → List Char → List Char → Option (List (List Char))
  | .gap, _, [] => some []
  | .word, acc, [] => some [acc]
  | .sq, _, [] => none
  | .dq, _, [] => none
  | .esc, _, [] => none
  | .dqEsc, _, [] => none
  | .gap, _, c :: cs =>
    if blank c then read .gap [] cs
    else if c = '\'' then read .sq [] cs
    else if c = '"' then read .dq [] cs
    else if c = '\\' then read .esc [] cs
    else if special.contains c then none
    else read .word [c] cs
  | .word, acc, c :: cs =>
    if blank c then (read .gap [] cs).map (acc :: ·)
    else if c = '\'' then read .sq acc cs
    else if c = '"' then read .dq acc cs
    else if c = '\\' then read .esc acc cs
    else if special.contains c then none
    else read .word (acc ++ [c]) cs
  | .esc, acc, c :: cs =>
    if c = '\n' then read .word acc cs else read .word (acc ++ [c]) cs
  | .sq, acc, c :: cs =>
    if c = '\'' then read .word acc cs else read .sq (acc ++ [c]) cs
  | .dq, acc, c :: cs =>
    if c = '"' then read .word acc cs
    else if c = '\\' then read .dqEsc acc cs
    else if c = '$' ∨ c = '`' then none
    else read .dq (acc ++ [c]) cs
  | .dqEsc, acc, c :: cs =>
    if c = '$' ∨ c = '`' ∨ c = '"' ∨ c = '\\' then read .dq (acc ++ [c]) cs
    else if c = '\n' then read .dq acc cs
    else read .dq (acc ++ ['\\', c]) cs

/-- The words of a complete text. -/
def words (t : List Char) : Option (List (List Char)) := read .gap [] t

end Posix
