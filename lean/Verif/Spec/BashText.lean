import Verif.Spec.Decimal
import Verif.Spec.Glob
/-!
# What Bash does with the function that parses a command line (specification, independent of the model)

A text is read character by character into a program: loops, `case`, `if`, functions, assignments and calls. A run of a
program changes variables. References: the Bash manual, "Shell Grammar", "Parameters", "Expansion", "Arrays",
"Functions". What the parser does not need is left out: the reader and the interpreter fail (`none`) on it. The patterns
of a `case` are kept as written and read by `CC.readGlob` (with `extglob`, which bash-completion switches on).
Simplifications: numbers are natural numbers; a function that is defined is known in the rest of the list of commands in
which its definition stands, and cannot call itself; a variable that is made local loses its value even if it was local
already.
-/

namespace BashText

/-! ## Words -/

/-- What may stand for a number in an arithmetic expression: `12`, `x`, `${#x}`, `++x`. -/
inductive Atom where
  | num (n : Nat)
  | var (x : List Char)
  | len (x : List Char)
  | inc (x : List Char)
  deriving DecidableEq, Repr

/-- Arithmetic expressions: nothing, a number, `x=1`, `a + b`, `a < b`, `a <= b`. -/
inductive Arith where
  | empty
  | atom (a : Atom)
  | set (x : List Char) (n : Nat)
  | add (a b : Atom)
  | lt (a b : Atom)
  | le (a b : Atom)
  deriving DecidableEq, Repr

/-- Parts of a word: a character that stands for itself, `$x`, `$1`, `${x[e]}`, `${x[@]:$((e))}`, `${#x[@]}`,
`${x:$((e))}`, `${x:$y:1}`, `${x#*=}` and `${x%%=*}`. -/
inductive Part where
  | lit (c : Char)
  | var (x : List Char)
  | arg (n : Nat)
  | elem (x : List Char) (e : Arith)
  | slice (x : List Char) (e : Arith)
  | count (x : List Char)
  | from_ (x : List Char) (e : Arith)
  | char (x y : List Char)
  | after (x : List Char)
  | before (x : List Char)
  deriving DecidableEq, Repr

/-- A word. -/
abbrev Word := List Part

/-- A character of a name. -/
def nameChar (c : Char) : Bool := c.isAlphanum || c == '_'

/-- The name of a variable. -/
def isName (t : List Char) : Bool :=
  match t with
  | [] => false
  | c :: _ => !c.isDigit && t.all nameChar

/-- The text without a beginning. -/
def without (p t : List Char) : Option (List Char) := if p.isPrefixOf t then some (t.drop p.length) else none

/-- The text between a beginning and an end. -/
def between (p q t : List Char) : Option (List Char) :=
  (without p t).bind (fun u => if q.isSuffixOf u then some (u.take (u.length - q.length)) else none)

/-- The parts between blanks. -/
def fields : List Char → List Char → List (List Char)
  | w, [] => if w.isEmpty then [] else [w]
  | w, c :: cs => if c = ' ' then (if w.isEmpty then fields [] cs else w :: fields [] cs) else fields (w ++ [c]) cs

/-- A name and what follows it. -/
def spanName (t : List Char) : Option (List Char × List Char) :=
  if isName (t.takeWhile nameChar) then some (t.takeWhile nameChar, t.dropWhile nameChar) else none

/-- A number in an arithmetic expression. -/
def readAtom (t : List Char) : Option Atom :=
  match Decimal.digits t with
  | some n => some (.num n)
  | none => match without "++".toList t with
    | some x => if isName x then some (.inc x) else none
    | none => match between "${#".toList "}".toList t with
      | some x => if isName x then some (.len x) else none
      | none => if isName t then some (.var t) else none

/-- An arithmetic expression. -/
def readArith (t : List Char) : Option Arith :=
  match fields [] t with
  | [] => some .empty
  | [a] => match readAtom a with
    | some x => some (.atom x)
    | none => (spanName a).bind (fun p => match p.2 with
      | '=' :: n => (Decimal.digits n).map (.set p.1)
      | _ => none)
  | [a, op, b] => (readAtom a).bind (fun a => (readAtom b).bind (fun b =>
      if op = "+".toList then some (.add a b)
      else if op = "<".toList then some (.lt a b)
      else if op = "<=".toList then some (.le a b)
      else none))
  | _ => none

/-- What stands in `${...}`. -/
def readBrace (t : List Char) : Option Part :=
  match without "#".toList t with
  | some u => (between [] "[@]".toList u).bind (fun x => if isName x then some (.count x) else none)
  | none => (spanName t).bind (fun p =>
      if p.2 = [] then some (.var p.1)
      else if p.2 = "#*=".toList then some (.after p.1)
      else if p.2 = "%%=*".toList then some (.before p.1)
      else match between "[@]:$((".toList "))".toList p.2 with
      | some e => (readArith e).map (.slice p.1)
      | none => match between "[".toList "]".toList p.2 with
        | some e => (readArith e).map (.elem p.1)
        | none => match between ":$((".toList "))".toList p.2 with
          | some e => (readArith e).map (.from_ p.1)
          | none => match between ":$".toList ":1".toList p.2 with
            | some y => if isName y then some (.char p.1 y) else none
            | none => none)

/-- Where the reader is in a word: outside quotes, in single quotes, in double quotes, and (in double quotes or not)
behind `$`, in a name behind `$`, in `${...}`. -/
inductive WMode where
  | plain | sq | dq
  | dollar (q : Bool)
  | name (q : Bool) (x : List Char)
  | brace (q : Bool) (x : List Char)
  deriving DecidableEq, Repr

/-- Back in double quotes or outside. -/
def back (q : Bool) : WMode := if q then .dq else .plain

/-- A character in double quotes. -/
def dqChar (ps : Word) (c : Char) : Option (WMode × Word) :=
  if c = '"' then some (.plain, ps)
  else if c = '$' then some (.dollar true, ps)
  else if c = '`' ∨ c = '\\' then none
  else some (.dq, ps ++ [.lit c])

/-- A character outside quotes. Characters with a meaning of their own, and patterns, are not described. -/
def plainChar (ps : Word) (c : Char) : Option (WMode × Word) :=
  if c = '"' then some (.dq, ps)
  else if c = '\'' then some (.sq, ps)
  else if c = '$' then some (.dollar false, ps)
  else if c ∈ "`\\*?[]{}~!#&|;<>() \t\n".toList then none
  else some (.plain, ps ++ [.lit c])

/-- One character of a word. -/
def wstep (s : WMode × Word) (c : Char) : Option (WMode × Word) :=
  match s.1 with
  | .plain => plainChar s.2 c
  | .sq => if c = '\'' then some (.plain, s.2) else some (.sq, s.2 ++ [.lit c])
  | .dq => dqChar s.2 c
  | .dollar q =>
    if c = '{' then some (.brace q [], s.2)
    else if c.isDigit then (Decimal.digits [c]).map (fun n => (back q, s.2 ++ [.arg n]))
    else if nameChar c then some (.name q [c], s.2)
    else none
  | .name q x =>
    if nameChar c then some (.name q (x ++ [c]), s.2)
    else if q then dqChar (s.2 ++ [.var x]) c else plainChar (s.2 ++ [.var x]) c
  | .brace q x => if c = '}' then (readBrace x).map (fun p => (back q, s.2 ++ [p])) else some (.brace q (x ++ [c]), s.2)

/-- The parts of a word as written. -/
def readWord (t : List Char) : Option Word :=
  (t.foldlM wstep (WMode.plain, ([] : Word))).bind (fun s => match s.1 with
    | .plain => some s.2
    | .name false x => some (s.2 ++ [.var x])
    | _ => none)

/-- All that succeed. -/
def allSome {α : Type} : List (Option α) → Option (List α)
  | [] => some []
  | x :: r => x.bind (fun a => (allSome r).map (a :: ·))

/-- All words. -/
def readWords (ts : List (List Char)) : Option (List Word) := allSome (ts.map readWord)

/-! ## Programs -/

/-- Simple commands: `x=w`, `x+=w`, `x=(...)`, `x+=(...)`, `local x=w`, `local x`, `local -a x`, `local -n x=w`, a call, `[[ -n w ]]`,
`[[ w == pattern ]]`, `continue n`, `break n`, `return` with or without a status. -/
inductive Act where
  | set (x : List Char) (w : Word)
  | add (x : List Char) (w : Word)
  | setArray (x : List Char) (ws : List Word)
  | addArray (x : List Char) (ws : List Word)
  | localSet (x : List Char) (w : Word)
  | local_ (x : List Char)
  | localRef (x : List Char) (w : Word)
  | call (ws : List Word)
  | nonempty (w : Word)
  | equals (w : Word) (pattern : List Char)
  | continue_ (n : Nat)
  | break_ (n : Nat)
  | return_ (n : Option Nat)
  deriving DecidableEq, Repr

/-- Programs: a command and the rest of the program. `clause` only stands in the list of clauses of a `case`. -/
inductive Code where
  | done
  | act (a : Act) (next : Code)
  | loop (init cond step : Arith) (body next : Code)
  | case_ (w : Word) (clauses next : Code)
  | clause (pattern : List Char) (body next : Code)
  | if_ (cond then_ else_ next : Code)
  | function (name : List Char) (body next : Code)
  deriving DecidableEq, Repr

/-- One program behind the other. -/
def Code.append : Code → Code → Code
  | .done, k => k
  | .act a n, k => .act a (n.append k)
  | .loop i c s b n, k => .loop i c s b (n.append k)
  | .case_ w cl n, k => .case_ w cl (n.append k)
  | .clause p b n, k => .clause p b (n.append k)
  | .if_ c t e n, k => .if_ c t e (n.append k)
  | .function f b n, k => .function f b (n.append k)

instance : Append Code := ⟨Code.append⟩

/-- A simple command. -/
def one (a : Act) : Code := .act a .done

/-- Assignments: `x=w` and `x+=w`. -/
def readAssign (t : List Char) : Option Act :=
  (spanName t).bind (fun p => match p.2 with
    | '=' :: u => (readWord u).map (.set p.1)
    | '+' :: '=' :: u => (readWord u).map (.add p.1)
    | _ => none)

/-- One argument of `local`. -/
def readLocal (t : List Char) : Option Act :=
  if isName t then some (.local_ t)
  else match readAssign t with
    | some (.set x w) => some (.localSet x w)
    | _ => none

/-- The arguments of `local`: names, some with values; behind `-a` only names. A local array has no elements at first, it is
not told from a local variable without a value. -/
def readLocals (ts : List (List Char)) : Option Code :=
  (if ts.head? = some "-a".toList then (if ts.tail.all isName then some (ts.tail.map Act.local_) else none)
    else allSome (ts.map readLocal)).map (fun as => as.foldr Code.act .done)

/-- A number that is an argument. -/
def readCount : List (List Char) → Option Nat
  | [] => some 1
  | [n] => Decimal.digits n
  | _ => none

/-- The simple commands that are written as words. -/
def readSimple (ws : List (List Char)) : Option Code :=
  match ws with
  | [] => none
  | w :: r =>
    if w = "local".toList then
      match r with
      | [n, t] =>
        if n = "-n".toList then (match readAssign t with
          | some (.set x v) => some (one (.localRef x v))
          | _ => none)
        else readLocals r
      | _ => readLocals r
    else if w = "continue".toList then (readCount r).map (fun n => one (.continue_ n))
    else if w = "break".toList then (readCount r).map (fun n => one (.break_ n))
    else if w = "return".toList then
      (if r = [] then some (one (.return_ none)) else (readCount r).map (fun n => one (.return_ (some n))))
    else if w = "[[".toList then
      match r with
      | [n, t, c] => if n = "-n".toList ∧ c = "]]".toList then (readWord t).map (fun t => one (.nonempty t)) else none
      | [t, op, p, c] =>
        if op = "==".toList ∧ c = "]]".toList ∧ '|' ∉ p then (readWord t).map (fun t => one (.equals t p)) else none
      | _ => none
    else match readAssign w with
      | some a => if r = [] then some (one a) else none
      | none => (readWords ws).map (fun ws => one (.call ws))

/-- `x=(...)` and `x+=(...)`. -/
def readArray (t : List Char) (els : List (List Char)) : Option Code :=
  (spanName t).bind (fun p =>
    if p.2 = "=".toList then (readWords els).map (fun ws => one (.setArray p.1 ws))
    else if p.2 = "+=".toList then (readWords els).map (fun ws => one (.addArray p.1 ws))
    else none)

/-- The text is the beginning of an array. -/
def opensArray (t : List Char) : Bool := t.getLast? == some '='

/-- The three expressions of a loop. -/
def readHead (t : List Char) : Option (Arith × Arith × Arith) :=
  match CC.splitOn ';' t with
  | [a, b, c] => (readArith a).bind (fun a => (readArith b).bind (fun b => (readArith c).map (fun c => (a, b, c))))
  | _ => none

/-- What the reader is in the middle of. `chained` marks an `if` that was written `elif`. -/
inductive Kind where
  | top
  | function (name : List Char)
  | loop (init cond step : Arith)
  | case_ (w : Word)
  | clause (pattern : List Char)
  | ifCond (chained : Bool)
  | then_ (chained : Bool) (cond : Code)
  | else_ (chained : Bool) (cond then_ : Code)
  deriving DecidableEq, Repr

/-- An open construct and the commands (or clauses) read in it so far. -/
structure Frame where
  kind : Kind
  code : Code := .done
  deriving DecidableEq, Repr

/-- The command that is being read: none yet, words, the elements of an array, a command that is complete; and the heads
of loops, `case` and functions. -/
inductive Pending where
  | start
  | words (ws : List (List Char))
  | array (t : List Char) (els : List (List Char))
  | closed
  | forWord
  | forHead (h : Arith × Arith × Arith)
  | forDo (h : Arith × Arith × Arith)
  | caseWord
  | caseIn (w : Word)
  | fnOpen (name : List Char)
  | fnClose (name : List Char)
  deriving DecidableEq, Repr

/-- Tokens. `attached` is an opening parenthesis behind a word, `arith` the text between `((` and `))`. -/
inductive Tok where
  | word (t : List Char)
  | nl | semi | dsemi | attached | rpar
  | arith (t : List Char)
  deriving DecidableEq, Repr

/-- The state of the parser. -/
structure PState where
  pending : Pending := .start
  stack : List Frame := [⟨.top, .done⟩]
  deriving DecidableEq, Repr

/-- Commands are added to the innermost construct. -/
def push (c : Code) : List Frame → Option (List Frame)
  | [] => none
  | f :: r => some ({ f with code := f.code ++ c } :: r)

/-- `;;` -/
def endClause : List Frame → Option (List Frame)
  | ⟨.clause p, b⟩ :: r => push (.clause p b .done) r
  | _ => none

/-- `fi` closes an `if` and, if it was written `elif`, the one around it. -/
def closeIf : Code → List Frame → Option (List Frame)
  | _, [] => none
  | inner, ⟨k, code⟩ :: r =>
    match k with
    | .then_ ch cond => if ch then closeIf (.if_ cond (code ++ inner) .done .done) r else push (.if_ cond (code ++ inner) .done .done) r
    | .else_ ch cond th => if ch then closeIf (.if_ cond th (code ++ inner) .done) r else push (.if_ cond th (code ++ inner) .done) r
    | _ => none

/-- `esac`. -/
def endCase : List Frame → Option (List Frame)
  | ⟨.case_ w, cl⟩ :: r => push (.case_ w cl .done) r
  | _ => none

/-- A word where a command may begin. The last clause of a `case` need not end with `;;`. -/
def startWord (w : List Char) (s : List Frame) : Option PState :=
  if w = "for".toList then some ⟨.forWord, s⟩
  else if w = "case".toList then some ⟨.caseWord, s⟩
  else if w = "if".toList then some ⟨.start, ⟨.ifCond false, .done⟩ :: s⟩
  else if w = "then".toList then
    match s with
    | ⟨.ifCond ch, cond⟩ :: r => some ⟨.start, ⟨.then_ ch cond, .done⟩ :: r⟩
    | _ => none
  else if w = "elif".toList then
    match s with
    | ⟨.then_ ch cond, t⟩ :: r => some ⟨.start, ⟨.ifCond true, .done⟩ :: ⟨.else_ ch cond t, .done⟩ :: r⟩
    | _ => none
  else if w = "else".toList then
    match s with
    | ⟨.then_ ch cond, t⟩ :: r => some ⟨.start, ⟨.else_ ch cond t, .done⟩ :: r⟩
    | _ => none
  else if w = "fi".toList then (closeIf .done s).map (fun r => ⟨.closed, r⟩)
  else if w = "done".toList then
    match s with
    | ⟨.loop i c st, b⟩ :: r => (push (.loop i c st b .done) r).map (fun r => ⟨.closed, r⟩)
    | _ => none
  else if w = "}".toList then
    match s with
    | ⟨.function f, b⟩ :: r => (push (.function f b .done) r).map (fun r => ⟨.closed, r⟩)
    | _ => none
  else if w = "esac".toList then ((endClause s).bind endCase).map (fun r => ⟨.closed, r⟩)
  else if w ∈ ["do".toList, "{".toList, "!".toList, "while".toList, "until".toList, "select".toList,
      "function".toList, "time".toList, "coproc".toList, "in".toList] then none
  else some ⟨.words [w], s⟩

/-- One token. -/
def pstep (p : PState) (t : Tok) : Option PState :=
  match p.pending, t with
  | .start, .word w => startWord w p.stack
  | .start, .nl => some p
  | .start, .dsemi => (endClause p.stack).map (fun s => ⟨.start, s⟩)
  | .words ws, .word w => some ⟨.words (ws ++ [w]), p.stack⟩
  | .words ws, .nl => (readSimple ws).bind (fun c => (push c p.stack).map (fun s => ⟨.start, s⟩))
  | .words ws, .semi => (readSimple ws).bind (fun c => (push c p.stack).map (fun s => ⟨.start, s⟩))
  | .words ws, .dsemi => (readSimple ws).bind (fun c => ((push c p.stack).bind endClause).map (fun s => ⟨.start, s⟩))
  | .words [w], .attached => if opensArray w then some ⟨.array w [], p.stack⟩ else some ⟨.fnOpen w, p.stack⟩
  | .array w els, .word e => some ⟨.array w (els ++ [e]), p.stack⟩
  | .array w els, .rpar => (readArray w els).bind (fun c => (push c p.stack).map (fun s => ⟨.closed, s⟩))
  | .closed, .nl => some ⟨.start, p.stack⟩
  | .closed, .semi => some ⟨.start, p.stack⟩
  | .closed, .dsemi => (endClause p.stack).map (fun s => ⟨.start, s⟩)
  | .forWord, .arith t => (readHead t).map (fun h => ⟨.forHead h, p.stack⟩)
  | .forHead h, .nl => some ⟨.forDo h, p.stack⟩
  | .forHead h, .semi => some ⟨.forDo h, p.stack⟩
  | .forDo h, .nl => some ⟨.forDo h, p.stack⟩
  | .forDo h, .word w => if w = "do".toList then some ⟨.start, ⟨.loop h.1 h.2.1 h.2.2, .done⟩ :: p.stack⟩ else none
  | .caseWord, .word w => (readWord w).map (fun w => ⟨.caseIn w, p.stack⟩)
  | .caseIn w, .word i => if i = "in".toList then some ⟨.start, ⟨.case_ w, .done⟩ :: p.stack⟩ else none
  | .fnOpen f, .rpar => some ⟨.fnClose f, p.stack⟩
  | .fnClose f, .word b => if b = "{".toList then some ⟨.start, ⟨.function f, .done⟩ :: p.stack⟩ else none
  | _, _ => none

/-! ## Characters -/

/-- Where the reader is: between words, in a word, in quotes, behind `$` in double quotes, in `${...}` in double quotes,
behind `;` or `(`, in an arithmetic expression, behind a `)` in it, in a comment, in a pattern of a `case`. -/
inductive Mode where
  | gap | word | sq | dq | dqDollar | dqBrace | semi | open_ | arith | arithClose | comment | pattern
  deriving DecidableEq, Repr

/-- The state of the reader: `text` is the word, expression or pattern so far. -/
structure State where
  mode : Mode := .gap
  text : List Char := []
  parser : PState := {}
  deriving DecidableEq, Repr

/-- The next thing is a pattern. -/
def atPattern (p : PState) : Bool :=
  match p.pending, p.stack with
  | .start, ⟨.case_ _, _⟩ :: _ => true
  | _, _ => false

/-- A token, then a mode. -/
def emit (p : PState) (t : Tok) (m : Mode) : Option State := (pstep p t).map (fun p => ⟨m, [], p⟩)

/-- A character between words, where no pattern is expected. -/
def gapCommand (p : PState) (c : Char) : Option State :=
  if c = ' ' ∨ c = '\t' then some ⟨.gap, [], p⟩
  else if c = '\n' then emit p .nl .gap
  else if c = '\'' then some ⟨.sq, [c], p⟩
  else if c = '"' then some ⟨.dq, [c], p⟩
  else if c = ';' then some ⟨.semi, [], p⟩
  else if c = '(' then some ⟨.open_, [], p⟩
  else if c = ')' then emit p .rpar .gap
  else if c = '#' then some ⟨.comment, [], p⟩
  else if c ∈ "\\&|<>`".toList then none
  else some ⟨.word, [c], p⟩

/-- A character of a pattern. `)` ends the pattern, `esac` the `case`. -/
def patternStep (p : PState) (t : List Char) (c : Char) : Option State :=
  match CC.gread CC.caseCtx {} (t ++ [c]) with
  | some _ => some ⟨.pattern, t ++ [c], p⟩
  | none =>
    if c = ')' then
      if (CC.readGlob CC.caseCtx t).isSome ∧ t ≠ "esac".toList then some ⟨.gap, [], ⟨.start, ⟨.clause t, .done⟩ :: p.stack⟩⟩
      else none
    else if t = "esac".toList then (endCase p.stack).bind (fun s => gapCommand ⟨.closed, s⟩ c)
    else none

/-- A character between words. -/
def gapStep (p : PState) (c : Char) : Option State :=
  if atPattern p then
    if c = ' ' ∨ c = '\t' ∨ c = '\n' then some ⟨.gap, [], p⟩
    else if c = '#' then some ⟨.comment, [], p⟩
    else patternStep p [] c
  else gapCommand p c

/-- A character in a word. -/
def wordStep (p : PState) (w : List Char) (c : Char) : Option State :=
  if c = '\'' then some ⟨.sq, w ++ [c], p⟩
  else if c = '"' then some ⟨.dq, w ++ [c], p⟩
  else if c = '(' then (pstep p (.word w)).bind (fun p => emit p .attached .gap)
  else if c ∈ "\\&|<>`".toList then none
  else if c = ' ' ∨ c = '\t' ∨ c = '\n' ∨ c = ';' ∨ c = ')' then (pstep p (.word w)).bind (fun p => gapStep p c)
  else some ⟨.word, w ++ [c], p⟩

/-- One character. -/
def step (s : State) (c : Char) : Option State :=
  match s.mode with
  | .gap => gapStep s.parser c
  | .word => wordStep s.parser s.text c
  | .sq => some ⟨if c = '\'' then .word else .sq, s.text ++ [c], s.parser⟩
  | .dq =>
    if c = '`' ∨ c = '\\' then none
    else some ⟨if c = '"' then .word else if c = '$' then .dqDollar else .dq, s.text ++ [c], s.parser⟩
  | .dqDollar =>
    if c = '{' then some ⟨.dqBrace, s.text ++ [c], s.parser⟩
    else if nameChar c then some ⟨.dq, s.text ++ [c], s.parser⟩
    else none
  | .dqBrace =>
    if c ∈ "\"'\\`{".toList then none
    else some ⟨if c = '}' then .dq else .dqBrace, s.text ++ [c], s.parser⟩
  | .semi => if c = ';' then emit s.parser .dsemi .gap else (pstep s.parser .semi).bind (fun p => gapStep p c)
  | .open_ => if c = '(' then some ⟨.arith, [], s.parser⟩ else none
  | .arith => some ⟨if c = ')' then .arithClose else .arith, if c = ')' then s.text else s.text ++ [c], s.parser⟩
  | .arithClose => if c = ')' then emit s.parser (.arith s.text) .gap else none
  | .comment => if c = '\n' then gapStep s.parser c else some ⟨.comment, [], s.parser⟩
  | .pattern => patternStep s.parser s.text c

/-- Reading on. -/
def run (s : State) (t : List Char) : Option State := t.foldlM step s

/-- The program that a text is. -/
def read (t : List Char) : Option Code :=
  (run {} (t ++ ['\n'])).bind (fun s => match s.mode, s.parser.pending, s.parser.stack with
    | .gap, .start, [⟨.top, c⟩] => some c
    | _, _, _ => none)

/-! ## Running -/

/-- Values of variables; `ref` is the name of another variable (`local -n`). -/
inductive Val where
  | unset
  | str (s : List Char)
  | array (l : List (List Char))
  | ref (x : List Char)
  deriving DecidableEq, Repr

/-- The variables, the arguments of the function, the values that the local variables of the function had outside, and
whether the last command succeeded. -/
structure Env where
  vars : List Char → Val
  args : List (List Char) := []
  saved : List (List Char × Val) := []
  ok : Bool := true

/-- Where a program goes on. -/
inductive Flow where
  | next
  | break_ (n : Nat)
  | continue_ (n : Nat)
  | return_
  deriving DecidableEq, Repr

/-- Set a variable. -/
def Env.put (e : Env) (x : List Char) (v : Val) : Env :=
  { e with vars := fun y => if y = x then v else e.vars y, ok := true }

/-- The variable that a name means. -/
def target (e : Env) (x : List Char) : Option (List Char) :=
  match e.vars x with
  | .ref y => match e.vars y with
    | .ref _ => none
    | _ => some y
  | _ => some x

/-- The text of a value. -/
def Val.text : Val → List Char
  | .unset => []
  | .str s => s
  | .array l => l.headD []
  | .ref _ => []

/-- The elements of a value. -/
def Val.elements : Val → List (List Char)
  | .unset => []
  | .str s => [s]
  | .array l => l
  | .ref _ => []

/-- The value of a variable. -/
def value (e : Env) (x : List Char) : Option Val := (target e x).map e.vars

/-- A natural number as text. -/
def decimal (n : Nat) : List Char := Nat.toDigits 10 n

/-- The number that a variable holds. -/
def numberOf (e : Env) (x : List Char) : Option Nat :=
  (value e x).bind (fun v => if v.text = [] then some 0 else Decimal.digits v.text)

/-- The value of a number. -/
def Atom.eval (e : Env) : Atom → Option (Nat × Env)
  | .num n => some (n, e)
  | .var x => (numberOf e x).map (fun n => (n, e))
  | .len x => (value e x).map (fun v => (v.text.length, e))
  | .inc x => (numberOf e x).map (fun n => (n + 1, e.put x (.str (decimal (n + 1)))))

/-- The value of an expression: 1 and 0 are true and false. -/
def Arith.eval (e : Env) : Arith → Option (Nat × Env)
  | .empty => some (1, e)
  | .atom a => a.eval e
  | .set x n => some (n, e.put x (.str (decimal n)))
  | .add a b => (a.eval e).bind (fun r => (b.eval r.2).map (fun s => (r.1 + s.1, s.2)))
  | .lt a b => (a.eval e).bind (fun r => (b.eval r.2).map (fun s => (if r.1 < s.1 then 1 else 0, s.2)))
  | .le a b => (a.eval e).bind (fun r => (b.eval r.2).map (fun s => (if r.1 ≤ s.1 then 1 else 0, s.2)))

/-- The text behind the first `=`; the whole text if there is none. -/
def behindEquals (t : List Char) : List Char := if '=' ∈ t then (t.dropWhile (· != '=')).drop 1 else t

/-- The text before the first `=`. -/
def beforeEquals (t : List Char) : List Char := t.takeWhile (· != '=')

/-- The text that a part stands for. -/
def Part.expand (e : Env) : Part → Option (List Char × Env)
  | .lit c => some ([c], e)
  | .var x => (value e x).map (fun v => (v.text, e))
  | .arg n => some ((e.args[n - 1]?).getD [], e)
  | .elem x i => (i.eval e).bind (fun r => (value r.2 x).map (fun v => ((v.elements[r.1]?).getD [], r.2)))
  | .slice _ _ => none
  | .count x => (value e x).map (fun v => (decimal v.elements.length, e))
  | .from_ x i => (i.eval e).bind (fun r => (value r.2 x).map (fun v => (v.text.drop r.1, r.2)))
  | .char x y => (numberOf e y).bind (fun n => (value e x).map (fun v => ((v.text.drop n).take 1, e)))
  | .after x => (value e x).map (fun v => (behindEquals v.text, e))
  | .before x => (value e x).map (fun v => (beforeEquals v.text, e))

/-- The text that a word stands for. -/
def expand (e : Env) : Word → Option (List Char × Env)
  | [] => some ([], e)
  | p :: r => (p.expand e).bind (fun a => (expand a.2 r).map (fun b => (a.1 ++ b.1, b.2)))

/-- The words that words stand for. -/
def expandAll (e : Env) : List Word → Option (List (List Char) × Env)
  | [] => some ([], e)
  | [.slice x i] :: r => (i.eval e).bind (fun n => (value n.2 x).bind (fun v =>
      (expandAll n.2 r).map (fun b => (v.elements.drop n.1 ++ b.1, b.2))))
  | w :: r => (expand e w).bind (fun a => (expandAll a.2 r).map (fun b => (a.1 :: b.1, b.2)))

/-- The functions that are known. -/
abbrev Funs := List (List Char × (List (List Char) → Env → Option Env))

/-- The variables get their values from outside the function again. -/
def restore (e : Env) : List (List Char × Val) → Env
  | [] => e
  | s :: r => restore { e with vars := fun y => if y = s.1 then s.2 else e.vars y } r

/-- A local variable. -/
def declare (e : Env) (x : List Char) (v : Val) : Env :=
  { (e.put x v) with saved := (x, e.vars x) :: e.saved }

open Classical in
/-- A simple command. -/
noncomputable def Act.run (fs : Funs) (e : Env) : Act → Option (Env × Flow)
  | .set x w => (expand e w).bind (fun r => (target r.2 x).map (fun x => (r.2.put x (.str r.1), .next)))
  | .add x w => (expand e w).bind (fun r => (target r.2 x).map (fun x => (r.2.put x (.str ((r.2.vars x).text ++ r.1)), .next)))
  | .setArray x ws => (expandAll e ws).bind (fun r => (target r.2 x).map (fun x => (r.2.put x (.array r.1), .next)))
  | .addArray x ws => (expandAll e ws).bind (fun r => (target r.2 x).map (fun x =>
      (r.2.put x (.array ((r.2.vars x).elements ++ r.1)), .next)))
  | .localSet x w => (expand e w).map (fun r => (declare r.2 x (.str r.1), .next))
  | .local_ x => some (declare e x .unset, .next)
  | .localRef x w => (expand e w).bind (fun r => if r.1 = x then none else some (declare r.2 x (.ref r.1), .next))
  | .call ws => (expandAll e ws).bind (fun r => match r.1 with
      | [] => none
      | f :: as => ((fs.find? (fun g => decide (g.1 = f))).bind (fun g => g.2 as r.2)).map (fun e => (e, .next)))
  | .nonempty w => (expand e w).map (fun r => ({ r.2 with ok := !r.1.isEmpty }, .next))
  | .equals w p => (expand e w).bind (fun r => (CC.readGlob CC.caseCtx p).map (fun alts =>
      ({ r.2 with ok := decide (CC.Glob.AltLang alts r.1) }, .next)))
  | .continue_ n => some (e, .continue_ n)
  | .break_ n => some (e, .break_ n)
  | .return_ none => some (e, .return_)
  | .return_ (some n) => some ({ e with ok := decide (n = 0) }, .return_)

/-- A loop: the body for as long as the condition is not 0, at most `fuel` times. -/
def iterate (cond step : Arith) (body : Env → Option (Env × Flow)) : Nat → Env → Option (Env × Flow)
  | 0, _ => none
  | fuel + 1, e => (cond.eval e).bind (fun r =>
      if r.1 = 0 then some (r.2, .next)
      else (body r.2).bind (fun b => match b.2 with
        | .next => (step.eval b.1).bind (fun s => iterate cond step body fuel s.2)
        | .continue_ n => if n ≤ 1 then (step.eval b.1).bind (fun s => iterate cond step body fuel s.2) else some (b.1, .continue_ (n - 1))
        | .break_ n => if n ≤ 1 then some (b.1, .next) else some (b.1, .break_ (n - 1))
        | .return_ => some (b.1, .return_)))

/-- A function with a body: it gets new arguments, and its local variables end with it. -/
def closure (body : Env → Option (Env × Flow)) (args : List (List Char)) (e : Env) : Option Env :=
  (body { e with args := args, saved := [] }).bind (fun r => match r.2 with
    | .next => some { (restore r.1 r.1.saved) with args := e.args, saved := e.saved }
    | .return_ => some { (restore r.1 r.1.saved) with args := e.args, saved := e.saved }
    | _ => none)

/-- What follows a command that has ended. -/
def andThen (r : Option (Env × Flow)) (k : Env → Option (Env × Flow)) : Option (Env × Flow) :=
  r.bind (fun x => match x.2 with
    | .next => k x.1
    | f => some (x.1, f))

open Classical in
mutual
/-- A program. -/
noncomputable def exec (fuel : Nat) (fs : Funs) : Code → Env → Option (Env × Flow)
  | .done, e => some (e, .next)
  | .act a k, e => andThen (a.run fs e) (exec fuel fs k)
  | .loop i c s b k, e => andThen ((i.eval e).bind (fun r => iterate c s (exec fuel fs b) fuel r.2)) (exec fuel fs k)
  | .case_ w cl k, e => andThen ((expand e w).bind (fun r => choose fuel fs r.1 cl r.2)) (exec fuel fs k)
  | .clause _ _ _, _ => none
  | .if_ c t el k, e => andThen (andThen (exec fuel fs c e) (fun e => if e.ok then exec fuel fs t e else exec fuel fs el { e with ok := true }))
      (exec fuel fs k)
  | .function f b k, e => exec fuel ((f, closure (exec fuel fs b)) :: fs) k e
/-- The clauses of a `case`: the first with a pattern that matches. -/
noncomputable def choose (fuel : Nat) (fs : Funs) (v : List Char) : Code → Env → Option (Env × Flow)
  | .done, e => some ({ e with ok := true }, .next)
  | .clause p b k, e => (CC.readGlob CC.caseCtx p).bind (fun alts =>
      if CC.Glob.AltLang alts v then exec fuel fs b { e with ok := true } else choose fuel fs v k e)
  | _, _ => none
end

end BashText
