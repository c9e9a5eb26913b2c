import Verif.Spec.Posix
/-!
# How Bash reads and runs the code of a completer (specification, independent of the model)

The reader covers the part of Bash that the completers use: words with quotes, `"$name"` and `"${…}"` in
double quotes, `$name` as a word, operators, and newlines. It fails (`none`) on everything else, for example
on a backquote or a pattern outside quotes. Reference: the Bash manual, "Quoting", "Shell Syntax".
-/

namespace BashCode

/-- A piece of a word: a character taken literally, or an expansion (the text behind the dollar sign). -/
inductive Seg where
  | ch (c : Char)
  | exp (text : List Char)
  deriving DecidableEq, Repr

/-- A token: a word, an operator character (`glued`: no blank before it), or the end of a line. -/
inductive Tok where
  | word (segs : List Seg)
  | op (c : Char) (glued : Bool)
  | nl
  deriving DecidableEq, Repr

/-- Reading position: between words; right after an operator; in a word; in single quotes; in double quotes;
after a backslash outside or inside double quotes; after `$` in double quotes, in `$name`, in `${…}`, and in
quotes in there; after `$` outside quotes, and in a `$name` there; after a backslash where no word has begun, and at the start of
a line that a backslash joined to the one before. -/
inductive Mode where
  | gap | oper | word | sq | dq | esc | dqEsc
  | dollar | name | brace | braceSq | braceDq
  | bareDollar | bareName | gapEsc | joined
  deriving DecidableEq, Repr

/-- The state of the reader: the current word, the current expansion, the tokens so far. -/
structure State where
  mode : Mode := .gap
  word : List Seg := []
  exp : List Char := []
  out : List Tok := []
  deriving DecidableEq, Repr

/-- Operator characters. -/
def operators : List Char := ['(', ')', '&', '>', '{', '}']

/-- Other characters that have a meaning outside quotes. -/
def unsupported : List Char := ['|', ';', '<', '`', '*', '?', '[', ']', '#', '~', '!', '^']

/-- A character outside quotes, when no word has begun. -/
def atStart (glued : Bool) (st : State) (c : Char) : Option State :=
  if c = ' ' ∨ c = '\t' then some { st with mode := .gap }
  else if c = '\n' then some { st with mode := .gap, out := st.out ++ [.nl] }
  else if c = '\'' then some { st with mode := .sq, word := [] }
  else if c = '"' then some { st with mode := .dq, word := [] }
  else if c = '\\' then some { st with mode := .gapEsc, word := [] }
  else if c = '$' then some { st with mode := .bareDollar }
  else if operators.contains c then some { st with mode := .oper, out := st.out ++ [.op c glued] }
  else if unsupported.contains c then none
  else some { st with mode := .word, word := [.ch c] }

/-- Characters of a name. -/
def nameChar (c : Char) : Bool := c.isAlphanum || c == '_'

/-- Read one character. -/
def step (st : State) (c : Char) : Option State :=
  match st.mode with
  | .gap => atStart false st c
  | .oper => atStart true st c
  | .joined => atStart false st c
  | .gapEsc =>
    if c = '\n' then some { st with mode := .joined } else some { st with mode := .word, word := [.ch c] }
  | .word =>
    if c = ' ' ∨ c = '\t' then some { st with mode := .gap, word := [], out := st.out ++ [.word st.word] }
    else if c = '\n' then some { st with mode := .gap, word := [], out := st.out ++ [.word st.word, .nl] }
    else if c = '\'' then some { st with mode := .sq }
    else if c = '"' then some { st with mode := .dq }
    else if c = '\\' then some { st with mode := .esc }
    else if c = '$' then none
    else if operators.contains c then
      some { st with mode := .oper, word := [], out := st.out ++ [.word st.word, .op c true] }
    else if unsupported.contains c then none
    else some { st with word := st.word ++ [.ch c] }
  | .esc =>
    if c = '\n' then none else some { st with mode := .word, word := st.word ++ [.ch c] }
  | .sq =>
    if c = '\'' then some { st with mode := .word } else some { st with word := st.word ++ [.ch c] }
  | .dq =>
    if c = '"' then some { st with mode := .word }
    else if c = '\\' then some { st with mode := .dqEsc }
    else if c = '$' then some { st with mode := .dollar, exp := [] }
    else if c = '`' then none
    else some { st with word := st.word ++ [.ch c] }
  | .dqEsc =>
    if c = '$' ∨ c = '`' ∨ c = '"' ∨ c = '\\' then some { st with mode := .dq, word := st.word ++ [.ch c] }
    else if c = '\n' then some { st with mode := .dq }
    else some { st with mode := .dq, word := st.word ++ [.ch '\\', .ch c] }
  | .dollar =>
    if c = '{' then some { st with mode := .brace, exp := ['{'] }
    else if nameChar c then some { st with mode := .name, exp := [c] }
    else none
  | .name =>
    if nameChar c then some { st with exp := st.exp ++ [c] }
    else if c = '"' then some { st with mode := .word, word := st.word ++ [.exp st.exp], exp := [] }
    else none
  | .brace =>
    if c = '}' then some { st with mode := .dq, word := st.word ++ [.exp (st.exp ++ ['}'])], exp := [] }
    else if c = '\'' then some { st with mode := .braceSq, exp := st.exp ++ [c] }
    else if c = '"' then some { st with mode := .braceDq, exp := st.exp ++ [c] }
    else if c = '\\' ∨ c = '$' ∨ c = '`' then none
    else some { st with exp := st.exp ++ [c] }
  | .braceSq =>
    if c = '\'' then some { st with mode := .brace, exp := st.exp ++ [c] } else some { st with exp := st.exp ++ [c] }
  | .braceDq =>
    if c = '"' then some { st with mode := .brace, exp := st.exp ++ [c] }
    else if c = '\\' ∨ c = '$' ∨ c = '`' then none
    else some { st with exp := st.exp ++ [c] }
  | .bareDollar =>
    if c = '(' then some { st with mode := .oper, out := st.out ++ [.op '$' false, .op '(' true] }
    else if nameChar c then some { st with mode := .bareName, exp := [c] }
    else none
  | .bareName =>
    if nameChar c then some { st with exp := st.exp ++ [c] }
    else if c = ' ' then some { st with mode := .gap, exp := [], out := st.out ++ [.word [.exp st.exp]] }
    else none

/-- Read a text. -/
def run : State → List Char → Option State
  | st, [] => some st
  | st, c :: cs => (step st c).bind (fun st => run st cs)

/-- The tokens of a complete text, whose last line may lack its newline. -/
def tokens (t : List Char) : Option (List Tok) :=
  (run {} (t ++ ['\n'])).bind (fun st => if st.mode = .gap then some st.out else none)

/-! ## Statements -/

/-- What a line does. -/
inductive Stmt where
  /-- Call a command with these words. -/
  | call (words : List (List Char))
  /-- Call a command with these words and the elements of an array. -/
  | callWith (words : List (List Char)) (array : List Char)
  /-- `COMPREPLY=($(compgen ARGS -- "$cur"))`, or with `+=`. -/
  | compgen (append : Bool) (args : List (List Char))
  /-- `local COMPREPLY_OLD=("${COMPREPLY[@]}")`. -/
  | saveReply
  /-- `COMPREPLY=("${COMPREPLY_OLD[@]}" "${COMPREPLY[@]}")`. -/
  | joinReply
  /-- `local cur_old="$cur"`. -/
  | saveCur
  /-- `cur="${cur##*SEP}"`: drop everything up to the last separator. -/
  | cutCur (sep : List Char)
  /-- `cur="$cur_old"`. -/
  | restoreCur
  /-- `local -x PATH=…`: pieces, where `none` stands for the value of `PATH`. -/
  | path (pieces : List (Option (List Char)))
  /-- `builtin pushd DIR &>/dev/null && {`: what follows is done in that directory. -/
  | enter (dir : List Char)
  /-- `builtin popd >/dev/null`. -/
  | leave
  /-- `}`. -/
  | close
  /-- `local -a a=()`. -/
  | newArray
  /-- `local c=FUNCTION`. -/
  | condition (function : List Char)
  /-- `a+=(WORDS)`, or `$c KEY && a+=(WORDS)`. -/
  | push (key : Option (List Char)) (words : List (List Char))
  deriving DecidableEq

/-- The text of a word without expansions. -/
def literal : List Seg → Option (List Char)
  | [] => some []
  | .ch c :: r => (literal r).map (c :: ·)
  | .exp _ :: _ => none

/-- The texts of words without expansions. -/
def literals : List Tok → Option (List (List Char))
  | [] => some []
  | .word w :: r => (literal w).bind (fun a => (literals r).map (a :: ·))
  | _ :: _ => none

/-- The pieces of a word with expansions of one variable. -/
def pieces (var : List Char) : List Char → List Seg → Option (List (Option (List Char)))
  | acc, [] => some (if acc = [] then [] else [some acc])
  | acc, .ch c :: r => pieces var (acc ++ [c]) r
  | acc, .exp t :: r =>
    if t = var then (pieces var [] r).map (fun l => (if acc = [] then [] else [some acc]) ++ none :: l) else none

/-- A word of literal characters. -/
def lit (s : String) : Tok := .word (s.toList.map .ch)

/-- The rest of a list behind a prefix. -/
def behind {α : Type} [DecidableEq α] : List α → List α → Option (List α)
  | [], l => some l
  | p :: ps, x :: xs => if p = x then behind ps xs else none
  | _ :: _, [] => none

/-- The list without a last part. -/
def before {α : Type} [DecidableEq α] (s l : List α) : Option (List α) :=
  (behind s.reverse l.reverse).map List.reverse

/-- The words between two fixed parts of a line. -/
def between (first last line : List Tok) : Option (List (List Char)) :=
  ((behind first line).bind (before last)).bind literals

/-- `COMPREPLY=($(compgen` … ` -- "$cur"))`. -/
def compgenStmt (plus : String) (append : Bool) (line : List Tok) : Option Stmt :=
  (between [lit ("COMPREPLY" ++ plus ++ "="), .op '(' true, .op '$' false, .op '(' true, lit "compgen"]
    [lit "--", .word [.exp "cur".toList], .op ')' true, .op ')' true] line).map (.compgen append)

/-- `a+=(…)`, with or without a condition. -/
def pushStmt (line : List Tok) : Option Stmt :=
  match line with
  | .word [.exp e] :: .word key :: .op '&' false :: .op '&' true :: r =>
    if e = "c".toList then
      (literal key).bind (fun k => (between [lit "a+=", .op '(' true] [.op ')' true] r).map (.push (some k)))
    else none
  | r => (between [lit "a+=", .op '(' true] [.op ')' true] r).map (.push none)

/-- `cur="${cur##*SEP}"`. -/
def cutStmt : List Tok → Option Stmt
  | [.word w] =>
    match behind ("cur=".toList.map Seg.ch) w with
    | some [.exp e] =>
      ((behind "{cur##*".toList e).bind (before ['}'])).bind (fun q =>
        match Posix.words q with
        | some [sep] => some (.cutCur sep)
        | _ => none)
    | _ => none
  | _ => none

/-- `local -x PATH=…`. -/
def pathStmt (line : List Tok) : Option Stmt :=
  match behind [lit "local", lit "-x"] line with
  | some [.word w] => (behind ("PATH=".toList.map Seg.ch) w).bind (fun r => (pieces "PATH".toList [] r).map .path)
  | _ => none

/-- `local c=FUNCTION`. -/
def conditionStmt (line : List Tok) : Option Stmt :=
  match behind [lit "local"] line with
  | some [.word w] => (behind ("c=".toList.map Seg.ch) w).bind (fun r => (literal r).map .condition)
  | _ => none

/-- `builtin pushd DIR &>/dev/null && {`. -/
def enterStmt (line : List Tok) : Option Stmt :=
  match between [lit "builtin", lit "pushd"]
      [.op '&' false, .op '>' true, lit "/dev/null", .op '&' false, .op '&' true, .op '{' false] line with
  | some [dir] => some (.enter dir)
  | _ => none

/-- A command with the elements of an array as its last arguments. -/
def callWithStmt (array : String) (line : List Tok) : Option Stmt :=
  (between [] [.word [.exp ("{" ++ array ++ "[@]}").toList]] line).map (fun ws => .callWith ws array.toList)

/-- A command. -/
def callStmt (line : List Tok) : Option Stmt := (literals line).map .call

/-- A line that is always the same. -/
def fixedStmt (line : List Tok) : Option Stmt :=
  if line = [lit "local", lit "COMPREPLY_OLD=", .op '(' true, .word [.exp "{COMPREPLY[@]}".toList], .op ')' true]
  then some .saveReply
  else if line = [lit "COMPREPLY=", .op '(' true, .word [.exp "{COMPREPLY_OLD[@]}".toList],
    .word [.exp "{COMPREPLY[@]}".toList], .op ')' true] then some .joinReply
  else if line = [lit "local", .word ("cur_old=".toList.map .ch ++ [.exp "cur".toList])] then some .saveCur
  else if line = [.word ("cur=".toList.map .ch ++ [.exp "cur_old".toList])] then some .restoreCur
  else if line = [lit "builtin", lit "popd", .op '>' false, lit "/dev/null"] then some .leave
  else if line = [.op '}' false] then some .close
  else if line = [lit "local", lit "-a", lit "a=", .op '(' true, .op ')' true] then some .newArray
  else none

/-- What a line does. -/
def stmt (line : List Tok) : Option Stmt :=
  fixedStmt line <|> compgenStmt "" false line <|> compgenStmt "+" true line <|> pushStmt line <|> cutStmt line <|>
    pathStmt line <|> conditionStmt line <|> enterStmt line <|> callWithStmt "a" line <|>
    callWithStmt "COMPREPLY" line <|> callStmt line

/-- The lines of a list of tokens, without the empty ones. -/
def lines : List Tok → List Tok → List (List Tok)
  | acc, [] => if acc = [] then [] else [acc]
  | acc, .nl :: r => if acc = [] then lines [] r else acc :: lines [] r
  | acc, t :: r => lines (acc ++ [t]) r

/-- What a text does, line by line. -/
def stmts (l : List (List Tok)) : Option (List Stmt) :=
  match l with
  | [] => some []
  | x :: r => (stmt x).bind (fun s => (stmts r).map (s :: ·))

/-- What a text does. -/
def read (t : List Char) : Option (List Stmt) := (tokens t).bind (fun ts => stmts (lines [] ts))

end BashCode
