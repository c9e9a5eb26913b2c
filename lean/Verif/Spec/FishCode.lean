import Verif.Spec.Fish
/-!
# How Fish reads the code of a completer (specification, independent of the model)

The reader covers the part of Fish that the completers and the script use: words with quotes, `$name` as a word,
`$name` and `"$name[…]"` in double quotes, simple command substitutions, `|`, `&&`, `||`, `;` and newlines, comments on
lines, and a backslash in front of a newline. It fails (`none`) on everything else, for example on a redirection.
Reference: the Fish manual, "The fish language". A statement is the list of its tokens; what a command does with its arguments is not
part of the reader.
-/

namespace FishCode

/-- A piece of a word: a character taken literally, an expansion of a variable (the text behind the dollar sign),
or a command substitution (the text between the parentheses). -/
inductive Seg where
  | ch (c : Char)
  | exp (text : List Char)
  | sub (text : List Char)
  deriving DecidableEq, Repr

/-- A token of a statement. -/
inductive Tok where
  | word (segs : List Seg)
  | pipe
  | and
  | or
  deriving DecidableEq, Repr

/-- A statement: commands, joined by `|`, `&&` and `||`. -/
abbrev Stmt := List Tok

/-- Reading position: between words; in a word; in single quotes, and behind a backslash there; in double quotes,
and behind a backslash there; behind a backslash between words or in a word; behind one `&` or one `|`; in `$name`; in
`$name` in double quotes, and in the index behind it; in a command substitution; in a comment. -/
inductive Mode where
  | gap | word | sq | sqEsc | dq | dqEsc | gapEsc | esc | amp | bar | name | dqName | dqIndex | sub | comment
  deriving DecidableEq, Repr

/-- The state of the reader: the current word, the current expansion, the tokens of the current statement, and the
statements so far. -/
structure State where
  mode : Mode := .gap
  word : List Seg := []
  exp : List Char := []
  line : Stmt := []
  out : List Stmt := []
  deriving DecidableEq, Repr

/-- Does the statement end in a word? -/
def endsInWord : Stmt → Bool
  | [] => false
  | [.word _] => true
  | [_] => false
  | _ :: b :: r => endsInWord (b :: r)

/-- A word ends. -/
def endWord (st : State) : State := { line := st.line ++ [.word st.word], out := st.out }

/-- A variable that is a word ends. -/
def endName (st : State) : Option State :=
  if st.exp = [] then none else some { line := st.line ++ [.word [.exp st.exp]], out := st.out }

/-- A statement ends. -/
def endLine (st : State) : Option State :=
  if st.line = [] then some { out := st.out }
  else if endsInWord st.line then some { out := st.out ++ [st.line] }
  else none

/-- `|`, `&&` or `||`, behind a word. -/
def operator (t : Tok) (st : State) : Option State :=
  if endsInWord st.line then some { line := st.line ++ [t], out := st.out } else none

/-- Read one character. -/
def step (st : State) (c : Char) : Option State :=
  match st.mode with
  | .gap =>
    if c = ' ' ∨ c = '\t' then some st
    else if c = '\n' ∨ c = ';' then endLine st
    else if c = '\'' then some { st with mode := .sq, word := [] }
    else if c = '"' then some { st with mode := .dq, word := [] }
    else if c = '\\' then some { st with mode := .gapEsc }
    else if c = '$' then some { st with mode := .name, exp := [] }
    else if c = '(' then some { st with mode := .sub, exp := [] }
    else if c = '|' then some { st with mode := .bar }
    else if c = '&' then some { st with mode := .amp }
    else if c = '!' then some { st with mode := .word, word := [.ch c] }
    else if c = '#' then some { st with mode := .comment }
    else if Fish.special.contains c then none
    else some { st with mode := .word, word := [.ch c] }
  | .word =>
    if c = ' ' ∨ c = '\t' then some (endWord st)
    else if c = '\n' ∨ c = ';' then endLine (endWord st)
    else if c = '\'' then some { st with mode := .sq }
    else if c = '"' then some { st with mode := .dq }
    else if c = '\\' then some { st with mode := .esc }
    else if Fish.special.contains c then none
    else some { st with word := st.word ++ [.ch c] }
  | .sq =>
    if c = '\'' then some { st with mode := .word }
    else if c = '\\' then some { st with mode := .sqEsc }
    else some { st with word := st.word ++ [.ch c] }
  | .sqEsc =>
    if c = '\'' ∨ c = '\\' then some { st with mode := .sq, word := st.word ++ [.ch c] }
    else some { st with mode := .sq, word := st.word ++ [.ch '\\', .ch c] }
  | .dq =>
    if c = '"' then some { st with mode := .word }
    else if c = '\\' then some { st with mode := .dqEsc }
    else if c = '$' then some { st with mode := .dqName, exp := [] }
    else some { st with word := st.word ++ [.ch c] }
  | .dqEsc =>
    if c = '$' ∨ c = '"' ∨ c = '\\' then some { st with mode := .dq, word := st.word ++ [.ch c] }
    else if c = '\n' then some { st with mode := .dq }
    else some { st with mode := .dq, word := st.word ++ [.ch '\\', .ch c] }
  | .gapEsc =>
    if c = '\n' then some { st with mode := .gap }
    else if c = 't' then some { st with mode := .word, word := [.ch '\t'] }
    else none
  | .esc =>
    if c = '\n' then some { st with mode := .word }
    else if c = 't' then some { st with mode := .word, word := st.word ++ [.ch '\t'] }
    else none
  | .amp => if c = '&' then operator .and st else none
  | .bar => if c = '|' then operator .or st else if c = ' ' then operator .pipe st else none
  | .name =>
    if Fish.varChar c then some { st with exp := st.exp ++ [c] }
    else if c = ' ' ∨ c = '\t' then endName st
    else if c = '\n' ∨ c = ';' then (endName st).bind endLine
    else none
  | .dqName =>
    if Fish.varChar c then some { st with exp := st.exp ++ [c] }
    else if st.exp = [] then none
    else if c = '[' then some { st with mode := .dqIndex, exp := st.exp ++ [c] }
    else if c = '"' then some { st with mode := .word, word := st.word ++ [.exp st.exp], exp := [] }
    else if c = '\\' then some { st with mode := .dqEsc, word := st.word ++ [.exp st.exp], exp := [] }
    else if c = '$' then some { st with mode := .dqName, word := st.word ++ [.exp st.exp], exp := [] }
    else some { st with mode := .dq, word := st.word ++ [.exp st.exp, .ch c], exp := [] }
  | .dqIndex =>
    if c = ']' then some { st with mode := .dq, word := st.word ++ [.exp (st.exp ++ [c])], exp := [] }
    else if c = '"' ∨ c = '\\' ∨ c = '(' ∨ c = '[' then none
    else some { st with exp := st.exp ++ [c] }
  | .sub =>
    if c = ')' then some { st with mode := .word, word := [.sub st.exp], exp := [] }
    else if c = '\'' ∨ c = '"' ∨ c = '\\' ∨ c = '(' ∨ c = '#' ∨ c = '\n' then none
    else some { st with exp := st.exp ++ [c] }
  | .comment => if c = '\n' then endLine st else some st

/-- Read a text. -/
def run : State → List Char → Option State
  | st, [] => some st
  | st, c :: cs => (step st c).bind (fun st => run st cs)

/-- The text ends, outside of quotes, substitutions and comments: the last word ends. (Code that ends in a comment
could not be put in parentheses.) -/
def rest (st : State) : Option State :=
  match st.mode with
  | .gap => some { line := st.line, out := st.out }
  | .word => some (endWord st)
  | .name => endName st
  | _ => none

/-- The statements of a text. -/
def read (t : List Char) : Option (List Stmt) :=
  (((run {} t).bind rest).bind endLine).map State.out

/-! ## Statements -/

/-- A word of literal characters. -/
def lit (w : List Char) : Tok := .word (w.map .ch)

/-- A call of a command. -/
def call (words : List (List Char)) : Stmt := words.map lit

end FishCode
