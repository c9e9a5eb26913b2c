import Verif.Spec.Decimal
import Verif.Spec.Posix
import Verif.Spec.ShellGrammar
/-!
# What Zsh does with the functions of a completion script (specification, independent of the model)

A text is read into tokens, the tokens into logical lines, the lines into statements and the statements into functions.
A run of a function sets local variables, calls commands, may go on in another function, and calls `_arguments`.
References: the Zsh manual, "Shell Grammar", "Redirection", "Parameters", "Expansion". What a completion script does not
need is left out: the reader and the interpreter fail (`none`) on it. A word is kept as it is written; what it stands for
is found when it is used. The elements of the array `args` are passed on as written (see `ZshArgs.ReadsAs`).
-/

namespace ZshText

/-! ## Tokens -/

/-- Tokens. `attached` is an opening parenthesis directly behind a word, `arith` the text between `((` and `))`. -/
inductive Tok where
  | word (t : List Char)
  | nl | semi | dsemi | and | or | bar | attached | rpar
  | arith (t : List Char)
  deriving DecidableEq, Repr

/-- Where the reader is: between words, in a word, in quotes, behind a backslash, behind `$` in double quotes, in `$(...)`
or `${...}` in double quotes, behind `&`, `|`, `;` or `(`, in an arithmetic expression, behind a `)` in it, and behind
`$` outside quotes. -/
inductive Mode where
  | gap | word | sq | dq | esc | gapEsc | dqEsc | dqDollar | dqSub | dqBrace | amp | bar | semi | open_ | arith | arithClose | dollar
  deriving DecidableEq, Repr

/-- The state of the reader: the word so far and the tokens so far. -/
structure State where
  mode : Mode := .gap
  word : List Char := []
  out : List Tok := []
  deriving DecidableEq, Repr

/-- A character between words. -/
def gapStep (o : List Tok) (c : Char) : Option State :=
  if c = ' ' ∨ c = '\t' then some ⟨.gap, [], o⟩
  else if c = '\n' then some ⟨.gap, [], o ++ [.nl]⟩
  else if c = '\'' then some ⟨.sq, [c], o⟩
  else if c = '"' then some ⟨.dq, [c], o⟩
  else if c = '\\' then some ⟨.gapEsc, [], o⟩
  else if c = '&' then some ⟨.amp, [], o⟩
  else if c = '|' then some ⟨.bar, [], o⟩
  else if c = ';' then some ⟨.semi, [], o⟩
  else if c = '(' then some ⟨.open_, [], o⟩
  else if c = ')' then some ⟨.gap, [], o ++ [.rpar]⟩
  else if c = '$' then some ⟨.dollar, [c], o⟩
  else if c = '<' ∨ c = '>' ∨ c = '#' ∨ c = '`' then none
  else some ⟨.word, [c], o⟩

/-- A character in a word. -/
def wordStep (w : List Char) (o : List Tok) (c : Char) : Option State :=
  if c = '\'' then some ⟨.sq, w ++ [c], o⟩
  else if c = '"' then some ⟨.dq, w ++ [c], o⟩
  else if c = '\\' then some ⟨.esc, w, o⟩
  else if c = '(' then some ⟨.gap, [], o ++ [.word w, .attached]⟩
  else if c = '$' then some ⟨.dollar, w ++ [c], o⟩
  else if c = '<' ∨ c = '>' ∨ c = '`' then none
  else if c = ' ' ∨ c = '\t' ∨ c = '\n' ∨ c = '&' ∨ c = '|' ∨ c = ';' ∨ c = ')' then gapStep (o ++ [.word w]) c
  else some ⟨.word, w ++ [c], o⟩

/-- One character. In `$(...)` and `${...}` there may be no quotes and no nesting. -/
def step (s : State) (c : Char) : Option State :=
  match s.mode with
  | .gap => gapStep s.out c
  | .word => wordStep s.word s.out c
  | .sq => some ⟨if c = '\'' then .word else .sq, s.word ++ [c], s.out⟩
  | .dq =>
    if c = '`' then none
    else some ⟨if c = '"' then .word else if c = '\\' then .dqEsc else if c = '$' then .dqDollar else .dq, s.word ++ [c], s.out⟩
  | .esc => some ⟨.word, if c = '\n' then s.word else s.word ++ ['\\', c], s.out⟩
  | .gapEsc => if c = '\n' then some ⟨.gap, [], s.out⟩ else none
  | .dqEsc => some ⟨.dq, s.word ++ [c], s.out⟩
  | .dqDollar =>
    if c = '(' then some ⟨.dqSub, s.word ++ [c], s.out⟩
    else if c = '{' then some ⟨.dqBrace, s.word ++ [c], s.out⟩
    else if c.isAlpha then some ⟨.dq, s.word ++ [c], s.out⟩
    else none
  | .dqSub =>
    if c = '"' ∨ c = '\'' ∨ c = '\\' ∨ c = '`' ∨ c = '$' ∨ c = '(' then none
    else some ⟨if c = ')' then .dq else .dqSub, s.word ++ [c], s.out⟩
  | .dqBrace =>
    if c = '"' ∨ c = '\'' ∨ c = '\\' ∨ c = '`' ∨ c = '$' ∨ c = '{' then none
    else some ⟨if c = '}' then .dq else .dqBrace, s.word ++ [c], s.out⟩
  | .amp => if c = '&' then some ⟨.gap, [], s.out ++ [.and]⟩ else none
  | .bar => if c = '|' then some ⟨.gap, [], s.out ++ [.or]⟩ else gapStep (s.out ++ [.bar]) c
  | .semi => if c = ';' then some ⟨.gap, [], s.out ++ [.dsemi]⟩ else gapStep (s.out ++ [.semi]) c
  | .open_ => if c = '(' then some ⟨.arith, [], s.out⟩ else none
  | .arith => some ⟨if c = ')' then .arithClose else .arith, if c = ')' then s.word else s.word ++ [c], s.out⟩
  | .arithClose => if c = ')' then some ⟨.gap, [], s.out ++ [.arith s.word]⟩ else none
  | .dollar => if c = '?' then some ⟨.word, s.word ++ [c], s.out⟩ else none

/-- Reading on. -/
def run : State → List Char → Option State
  | s, [] => some s
  | s, c :: cs => (step s c).bind (fun s => run s cs)

/-- The end of the text. -/
def finish (s : State) : Option (List Tok) :=
  match s.mode with
  | .gap => some s.out
  | .word => some (s.out ++ [.word s.word])
  | _ => none

/-- The tokens of a text. -/
def tokens (t : List Char) : Option (List Tok) := (run {} t).bind finish

/-! ## Statements -/

/-- The logical lines: line breaks in parentheses behind a word are blanks. -/
def lines : Nat → List Tok → List Tok → List (List Tok)
  | _, cur, [] => [cur]
  | 0, cur, .nl :: r => cur :: lines 0 [] r
  | d + 1, cur, .nl :: r => lines (d + 1) cur r
  | d, cur, .attached :: r => lines (d + 1) (cur ++ [.attached]) r
  | d, cur, .rpar :: r => lines (d - 1) (cur ++ [.rpar]) r
  | d, cur, t :: r => lines d (cur ++ [t]) r

/-- What `local` declares: a scalar with a value as written, or an array with elements as written. -/
inductive Local where
  | scalar (name value : List Char)
  | array (name : List Char) (elements : List (List Char))
  deriving DecidableEq, Repr

/-- Simple commands: a call, an arithmetic test, and `name+=(...)`. -/
inductive Simple where
  | call (words : List (List Char))
  | arith (t : List Char)
  | append (name : List Char) (elements : List (List Char))
  deriving DecidableEq, Repr

/-- Statements, one for each logical line: the first and the last line of a function; `local`; `case ... in`; a branch
`a|b) name; return $?;;` of it; `esac`; a list of commands. -/
inductive Stmt where
  | opening (name : List Char)
  | closing
  | locals (ls : List Local)
  | caseOf (w : List Char)
  | arm (patterns : List (List Char)) (call : List Char)
  | esac
  | list (ts : List (ShellGrammar.Tok Simple))
  deriving DecidableEq, Repr

/-- A name and what stands behind the first `=`. -/
def splitEquals : List Char → Option (List Char × List Char)
  | [] => none
  | c :: cs => if c = '=' then some ([], cs) else (splitEquals cs).map (fun p => (c :: p.1, p.2))

/-- The arguments of `local`; `pending` is an array of which the elements are being read. -/
def localItems : Option (List Char × List (List Char)) → List Tok → Option (List Local)
  | none, [] => some []
  | none, [.word w] =>
    if w = "-a".toList then some []
    else (splitEquals w).map (fun p => [.scalar p.1 p.2])
  | none, .word w :: .attached :: r =>
    match splitEquals w with
    | some (n, []) => localItems (some (n, [])) r
    | _ => none
  | none, .word w :: .word v :: r =>
    if w = "-a".toList then localItems none (.word v :: r)
    else (splitEquals w).bind (fun p => (localItems none (.word v :: r)).map (.scalar p.1 p.2 :: ·))
  | some (n, els), .word e :: r => localItems (some (n, els ++ [e])) r
  | some (n, els), .rpar :: r => (localItems none r).map (.array n els :: ·)
  | _, _ => none

/-- The patterns of a branch, and what stands behind them. -/
def patterns : List Tok → Option (List (List Char) × List Tok)
  | .word p :: .rpar :: r => some ([p], r)
  | .word p :: .bar :: r => (patterns r).map (fun x => (p :: x.1, x.2))
  | _ => none

/-- Where in a list of commands: at the start of a command, in a call, in an array, behind a complete command, and behind
a semicolon, where only `}` may follow. -/
inductive Place where
  | start
  | command (words : List (List Char))
  | array (name : List Char) (elements : List (List Char))
  | closed
  | semi

open ShellGrammar in
/-- The tokens of a list of commands, and where it ends. -/
def scan : Place → List Tok → Option (List (ShellGrammar.Tok Simple) × Place)
  | p, [] => some ([], p)
  | .start, .word w :: r =>
    if w = "!".toList then (scan .start r).map (fun x => (.bang :: x.1, x.2))
    else if w = "{".toList then (scan .start r).map (fun x => (.lpar :: x.1, x.2))
    else if w = "}".toList then none
    else scan (.command [w]) r
  | .start, .arith t :: r => (scan .closed r).map (fun x => (.cmd (.arith t) :: x.1, x.2))
  | .command ws, .word w :: r => scan (.command (ws ++ [w])) r
  | .command ws, .and :: r => (scan .start r).map (fun x => (.cmd (.call ws) :: .and :: x.1, x.2))
  | .command ws, .or :: r => (scan .start r).map (fun x => (.cmd (.call ws) :: .or :: x.1, x.2))
  | .command ws, .semi :: r => (scan .semi r).map (fun x => (.cmd (.call ws) :: x.1, x.2))
  | .command [w], .attached :: r => scan (.array w []) r
  | .array n els, .word e :: r => scan (.array n (els ++ [e])) r
  | .array n els, .rpar :: r => (scan .closed r).map (fun x => (.cmd (.append n els) :: x.1, x.2))
  | .closed, .and :: r => (scan .start r).map (fun x => (.and :: x.1, x.2))
  | .closed, .or :: r => (scan .start r).map (fun x => (.or :: x.1, x.2))
  | .closed, .semi :: r => scan .semi r
  | .semi, .word w :: r => if w = "}".toList then (scan .closed r).map (fun x => (.rpar :: x.1, x.2)) else none
  | _, _ :: _ => none

/-- The end of a list of commands. -/
def scanEnd : Place → Option (List (ShellGrammar.Tok Simple))
  | .command ws => some [.cmd (.call ws)]
  | .closed => some []
  | _ => none

/-- A list of commands. -/
def list (ts : List Tok) : Option Stmt := (scan .start ts).bind (fun x => (scanEnd x.2).map (fun e => .list (x.1 ++ e)))

/-- What stands behind the patterns of a branch. If the first pattern is written `esac`, it ends the `case`. -/
def armOf (x : List (List Char) × List Tok) : Option Stmt :=
  match x.2 with
  | [.word f, .semi, .word r, .word s, .dsemi] =>
    if r = "return".toList ∧ s = "$?".toList ∧ x.1.head? ≠ some "esac".toList then some (.arm x.1 f) else none
  | _ => none

/-- The statement of a logical line. -/
def stmt (ts : List Tok) : Option Stmt :=
  if ts.getLast? = some .dsemi then (patterns ts).bind armOf
  else match ts with
  | [.word n, .attached, .rpar, .word b] => if b = "{".toList then some (.opening n) else none
  | [.word w] => if w = "}".toList then some .closing else if w = "esac".toList then some .esac else list [.word w]
  | .word w :: r =>
    if w = "local".toList then (localItems none r).map .locals
    else if w = "case".toList then
      (match r with
        | [.word x, .word i] => if i = "in".toList then some (.caseOf x) else none
        | _ => none)
    else list (.word w :: r)
  | ts => list ts

/-- All that succeed. -/
def allSome {α : Type} : List (Option α) → Option (List α)
  | [] => some []
  | x :: r => x.bind (fun a => (allSome r).map (a :: ·))

/-- The functions: name and statements. -/
def functions : Option (List Char × List Stmt) → List Stmt → Option (List (List Char × List Stmt))
  | none, [] => some []
  | some _, [] => none
  | none, .opening n :: r => functions (some (n, [])) r
  | none, _ :: _ => none
  | some (n, b), .closing :: r => (functions none r).map ((n, b) :: ·)
  | some _, .opening _ :: _ => none
  | some (n, b), s :: r => functions (some (n, b ++ [s])) r

/-- The functions of a text. -/
def read (t : List Char) : Option (List (List Char × List Stmt)) :=
  (tokens t).bind (fun ts => (allSome (((lines 0 [] ts).filter (fun l => !l.isEmpty)).map stmt)).bind (functions none))

/-- The function with a name: the last that was defined. -/
def lookup (fs : List (List Char × List Stmt)) (name : List Char) : Option (List Stmt) :=
  (fs.reverse.find? (fun f => decide (f.1 = name))).map (·.2)

/-! ## Running -/

/-- What the helper functions do. `σ` is what the function `query` knows (its variables); `init` is `query init` for an
option table and the words of the command line; `ask` tells which other calls succeed. -/
structure Env (σ : Type) where
  query : List Char
  words : List (List Char)
  init : List Char → List (List Char) → σ
  ask : σ → List (List Char) → Bool
  positionals : σ → List (List Char)
  empty : σ

/-- The variables, and the calls of `_arguments` made so far: the flags and the elements. -/
structure Vars (σ : Type) where
  known : σ
  scalars : List (List Char × List Char) := []
  args : List (List Char) := []
  calls : List (List (List Char) × List (List Char)) := []

/-- A word without expansions. A word that begins with `=` outside quotes is replaced by the path of a command. -/
def literal (t : List Char) : Option (List Char) :=
  if t.head? = some '=' ∧ t ≠ ['='] then none
  else match Posix.words t with
    | some [w] => some w
    | _ => none

/-- The text between two texts. -/
def between (pre post t : List Char) : Option (List Char) :=
  if pre.isPrefixOf t ∧ post.isSuffixOf (t.drop pre.length) then some ((t.drop pre.length).take ((t.drop pre.length).length - post.length))
  else none

/-- The element of an array: from 1, negative numbers from the end. -/
def element (a : List (List Char)) (n : Int) : List Char :=
  if n = 0 then []
  else if 0 < n then (a[n.toNat - 1]?).getD []
  else (a.reverse[(-n).toNat - 1]?).getD []

/-- The letters `A` to `Z` become small (the flag `(L)`, for these letters). -/
def small (t : List Char) : List Char := t.map (fun c => if 'A' ≤ c ∧ c ≤ 'Z' then Char.ofNat (c.toNat + 32) else c)

/-- The words that a word stands for. -/
def expand {σ : Type} (env : Env σ) (v : Vars σ) (t : List Char) : Option (List (List Char)) :=
  if t = "\"${words[@]}\"".toList then some env.words
  else match between "\"${POSITIONALS[".toList "]}\"".toList t with
  | some n => (Decimal.number n).map (fun n => [element (env.positionals v.known) n])
  | none => match between "\"${(L)POSITIONALS[".toList "]}\"".toList t with
    | some n => (Decimal.number n).map (fun n => [small (element (env.positionals v.known) n)])
    | none => match between "\"$".toList "\"".toList t with
      | some n => ((v.scalars.find? (fun s => decide (s.1 = n))).map (fun s => [s.2]))
      | none => (literal t).map (fun w => [w])

/-- All words. -/
def expandAll {σ : Type} (env : Env σ) (v : Vars σ) (ts : List (List Char)) : Option (List (List Char)) :=
  (allSome (ts.map (expand env v))).map List.flatten

/-- Line breaks at the end of the output of a command are removed. -/
def withoutBreaks (t : List Char) : List Char := (t.reverse.dropWhile (· == '\n')).reverse

/-- The word of a `case`: the output of `query get_positional N`. -/
def caseWord {σ : Type} (env : Env σ) (v : Vars σ) (t : List Char) : Option (List Char) :=
  (between "\"$(".toList ")\"".toList t).bind (fun c => match Posix.words c with
    | some [q, g, n] =>
      if q = env.query ∧ g = "get_positional".toList then
        (Decimal.number n).map (fun n => withoutBreaks (element (env.positionals v.known) n))
      else none
    | _ => none)

/-- Comparisons. -/
def compares (op : List Char) (a b : Int) : Option Bool :=
  if op = "==".toList then some (decide (a = b))
  else if op = "!=".toList then some (decide (a ≠ b))
  else if op = "<=".toList then some (decide (a ≤ b))
  else if op = ">=".toList then some (decide (b ≤ a))
  else if op = "<".toList then some (decide (a < b))
  else if op = ">".toList then some (decide (b < a))
  else none

/-- The parts between blanks. -/
def fields : List Char → List Char → List (List Char)
  | w, [] => if w.isEmpty then [] else [w]
  | w, c :: cs => if c = ' ' then (if w.isEmpty then fields [] cs else w :: fields [] cs) else fields (w ++ [c]) cs

/-- An arithmetic test: the number of positionals compared with a number. -/
def arithmetic {σ : Type} (env : Env σ) (v : Vars σ) (t : List Char) : Option Bool :=
  match fields [] t with
  | [a, op, n] =>
    if a = "${#POSITIONALS[@]}".toList then (Decimal.number n).bind (compares op ((env.positionals v.known).length : Int)) else none
  | _ => none

/-- A call. -/
def callOf {σ : Type} (env : Env σ) (v : Vars σ) (ws : List (List Char)) : Option (Bool × Vars σ) :=
  if ws.head? = some "_arguments".toList then
    if ws.getLast? = some "\"${args[@]}\"".toList then
      (allSome (ws.tail.dropLast.map literal)).map (fun flags => (true, { v with calls := v.calls ++ [(flags, v.args)] }))
    else none
  else (expandAll env v ws).bind (fun xs => match xs with
    | q :: i :: table :: words =>
      if q = env.query ∧ i = "init".toList then some (true, { v with known := env.init table words })
      else some (env.ask v.known xs, v)
    | _ => some (env.ask v.known xs, v))

/-- A simple command: whether it succeeds, and the variables behind it. -/
def simple {σ : Type} (env : Env σ) (v : Vars σ) : Simple → Option (Bool × Vars σ)
  | .call ws => callOf env v ws
  | .arith t => (arithmetic env v t).map (fun b => (b, v))
  | .append n els => if n = "args+=".toList then some (true, { v with args := v.args ++ els }) else none

/-- A list of commands. -/
def exec {σ : Type} (env : Env σ) : Vars σ → ShellGrammar.Expr Simple → Option (Bool × Vars σ)
  | v, .atom a => simple env v a
  | v, .not e => (exec env v e).map (fun r => (!r.1, r.2))
  | v, .and e f => (exec env v e).bind (fun r => if r.1 then exec env r.2 f else some r)
  | v, .or e f => (exec env v e).bind (fun r => if r.1 then some r else exec env r.2 f)

/-- A declaration. The variables of `query` can only be made empty. -/
def declare {σ : Type} (env : Env σ) (v : Vars σ) : Local → Option (Vars σ)
  | .scalar n t => (literal t).map (fun x => { v with scalars := (n, x) :: v.scalars })
  | .array n els =>
    if n = "args".toList then some { v with args := els }
    else if n ∈ ["HAVING_OPTIONS".toList, "OPTION_VALUES".toList, "POSITIONALS".toList] ∧ els = [] then some { v with known := env.empty }
    else none

/-- Declarations. -/
def declares {σ : Type} (env : Env σ) : Vars σ → List Local → Option (Vars σ)
  | v, [] => some v
  | v, l :: r => (declare env v l).bind (fun v => declares env v r)

/-- How the statements of a function end: they are done, or go on in another function. -/
inductive Outcome (σ : Type) where
  | done (v : Vars σ)
  | goesOn (f : List Char) (v : Vars σ)

/-- The statements of a function. In a `case`, its value is given. -/
def statements {σ : Type} (env : Env σ) : Vars σ → Option (List Char) → List Stmt → Option (Outcome σ)
  | v, none, [] => some (.done v)
  | v, none, .locals ls :: r => (declares env v ls).bind (fun v => statements env v none r)
  | v, none, .list ts :: r =>
    (ShellGrammar.parse ts).bind (fun e => (exec env v e).bind (fun x => statements env x.2 none r))
  | v, none, .caseOf w :: r => (caseWord env v w).bind (fun x => statements env v (some x) r)
  | v, some x, .arm ps f :: r =>
    (allSome (ps.map literal)).bind (fun ps => if x ∈ ps then some (.goesOn f v) else statements env v (some x) r)
  | v, some _, .esac :: r => statements env v none r
  | _, _, _ => none

/-- A call of a function ends in a function with variables. -/
inductive Runs {σ : Type} (env : Env σ) (fs : List (List Char × List Stmt)) : List Char → Vars σ → List Char → Vars σ → Prop
  | ends {f body v v'} : lookup fs f = some body → statements env v none body = some (.done v') → Runs env fs f v f v'
  | goesOn {f body v g v' h v''} : lookup fs f = some body → statements env v none body = some (.goesOn g v') →
      Runs env fs g v' h v'' → Runs env fs f v h v''

end ZshText
