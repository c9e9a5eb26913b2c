/-!
# What a word stands for while it is being typed (specification, independent of the model)

Quotes may be open and a backslash may be the last character. Expansions are not performed: `$x` stands for
itself, as in the words that a completion function gets. Reference: the Bash manual, "Quoting".
-/

namespace Typed

/-- Outside quotes, in single quotes, in double quotes. -/
inductive Quoting where
  | bare | single | double
  deriving DecidableEq, Repr

/-- In double quotes a backslash quotes only these characters. -/
def escapable : List Char := ['$', '`', '"', '\\']

/-- The characters that a word stands for, each with whether it is quoted, and the quotes that are still open. -/
def read : Quoting → List Char → List (Char × Bool) × Quoting
  | q, [] => ([], q)
  | .bare, c :: cs =>
    if c = '\'' then read .single cs
    else if c = '"' then read .double cs
    else if c = '\\' then
      match cs with
      | [] => ([], .bare)
      | d :: ds => if d = '\n' then read .bare ds else ((d, true) :: (read .bare ds).1, (read .bare ds).2)
    else ((c, false) :: (read .bare cs).1, (read .bare cs).2)
  | .single, c :: cs =>
    if c = '\'' then read .bare cs else ((c, true) :: (read .single cs).1, (read .single cs).2)
  | .double, c :: cs =>
    if c = '"' then read .bare cs
    else if c = '\\' then
      match cs with
      | [] => ([], .double)
      | d :: ds =>
        if d = '\n' then read .double ds
        else if escapable.contains d then ((d, true) :: (read .double ds).1, (read .double ds).2)
        else (('\\', true) :: (d, true) :: (read .double ds).1, (read .double ds).2)
    else ((c, true) :: (read .double cs).1, (read .double cs).2)

/-- The text that a word stands for. -/
def text (w : List Char) : List Char := (read .bare w).1.map (·.1)

/-- The quotes that are open at the end. -/
def quoting (w : List Char) : Quoting := (read .bare w).2

/-- The position behind the last unquoted break character. -/
def lastBreak (breaks : List Char) : List (Char × Bool) → Option Nat
  | [] => none
  | p :: r =>
    match lastBreak breaks r with
    | some n => some (n + 1)
    | none => if p.2 = false ∧ p.1 ∈ breaks then some 1 else none

/-- No backslash before the end of a line, and in double quotes only where it quotes something. -/
def clean : Quoting → List Char → Bool
  | _, [] => true
  | .bare, c :: cs =>
    if c = '\'' then clean .single cs
    else if c = '"' then clean .double cs
    else if c = '\\' then
      match cs with
      | [] => true
      | d :: ds => d != '\n' && clean .bare ds
    else clean .bare cs
  | .single, c :: cs => if c = '\'' then clean .bare cs else clean .single cs
  | .double, c :: cs =>
    if c = '"' then clean .bare cs
    else if c = '\\' then
      match cs with
      | [] => true
      | d :: ds => escapable.contains d && clean .double ds
    else clean .double cs

end Typed

namespace Typed

/-- The word after one of the completions was chosen: it takes the place of what follows the last unquoted break
character (Bash manual, "Commands For Completion" and `COMP_WORDBREAKS`). Simplification: nothing is quoted by
the line editor. -/
def accept (breaks : List Char) (w r : List Char) : List Char :=
  (text w).take ((lastBreak breaks (read .bare w).1).getD 0) ++ r

end Typed

namespace Typed

/-- A character that no part of the shell gives a meaning to. -/
def plain (c : Char) : Bool := c.isAlphanum || c == '_' || c == '-' || c == '.' || c == ':' || c == '=' || c == '/' || c == ','

/-- What the manual says of `compgen -W words -- cur`, for one plain word and a plain `cur`. -/
def Compgen (compgen : List Char → List Char → List (List Char)) : Prop :=
  ∀ word cur : List Char, word ≠ [] → word.all plain = true → cur.all plain = true →
    compgen word cur = if cur.isPrefixOf word then [word] else []

/-- The words that `echo` takes for its options. -/
def EchoOption (w : List Char) : Prop := ∃ cs, w = '-' :: cs ∧ cs ≠ [] ∧ ∀ c ∈ cs, c = 'n' ∨ c = 'e' ∨ c = 'E'

end Typed
