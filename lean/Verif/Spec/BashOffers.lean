import Verif.Spec.BashText
import Verif.Spec.ZshText
/-!
# What Bash does with the code that offers option strings (specification, independent of the model)

The code is read line by line; blanks at the beginning of a line mean nothing. Words and lists of commands with `&&`, `||`, `!` and
`{ ...; }` are read as in `Spec/ZshText.lean`: on what is used here the two shells agree. The reader and the interpreter fail
(`none`) on everything that is not described here.
References: the Bash manual, "Compound Commands", "Lists of Commands", "Arrays", "Shell Parameter Expansion", "Shell Arithmetic",
"Programmable Completion Builtins" (`compgen -W`, `compopt -o nospace`).
-/

namespace BashOffers

open BashText (between spanName isName fields)

/-- The lines. -/
inductive Stmt where
  /-- `if (( ! END_OF_OPTIONS )) && [[ "$cur" = -* ]]; then` -/
  | ifOptions
  /-- `if ((...)); then` -/
  | ifArith (t : List Char)
  | fi
  /-- `local -a opts` -/
  | localOpts
  /-- a list of commands -/
  | list (ts : List (ShellGrammar.Tok ZshText.Simple))
  /-- `COMPREPLY+=($(compgen -W "${opts[*]}" -- "$cur"))` -/
  | reply
  /-- `[[ ${COMPREPLY-} == *= ]] && compopt -o nospace` -/
  | nospace
  /-- `return 1` -/
  | ret
  deriving DecidableEq, Repr

/-- A list of commands. -/
def readList (l : List Char) : Option (List (ShellGrammar.Tok ZshText.Simple)) :=
  (ZshText.tokens l).bind (fun ts => (ZshText.scan .start ts).bind (fun x => (ZshText.scanEnd x.2).map (fun e => x.1 ++ e)))

/-- A line without the blanks at its beginning. -/
def trimmed (l : List Char) : List Char := l.dropWhile (· == ' ')

/-- A line. -/
def readLine (line : List Char) : Option Stmt :=
  let l := trimmed line
  if l = "if (( ! END_OF_OPTIONS )) && [[ \"$cur\" = -* ]]; then".toList then some .ifOptions
  else if l = "local -a opts".toList then some .localOpts
  else if l = "COMPREPLY+=($(compgen -W \"${opts[*]}\" -- \"$cur\"))".toList then some .reply
  else if l = "[[ ${COMPREPLY-} == *= ]] && compopt -o nospace".toList then some .nospace
  else if l = "return 1".toList then some .ret
  else if l = "fi".toList then some .fi
  else match between "if ((".toList ")); then".toList l with
    | some t => some (.ifArith t)
    | none => (readList line).map .list

/-- `if` and `fi` belong together, and a body is not empty. `open_` is true directly behind `then`. -/
def nested : Nat → Bool → List Stmt → Bool
  | n, _, [] => n == 0
  | n, _, .ifOptions :: r => nested (n + 1) true r
  | n, _, .ifArith _ :: r => nested (n + 1) true r
  | 0, _, .fi :: _ => false
  | n + 1, open_, .fi :: r => !open_ && nested n false r
  | n, _, _ :: r => nested n false r

/-- The statements of a text; `none` if Bash cannot read it. -/
def read (t : List Char) : Option (List Stmt) :=
  (BashText.allSome (((CC.splitOn '\n' t).filter (fun l => !(trimmed l).isEmpty)).map readLine)).bind
    (fun ss => if nested 0 false ss then some ss else none)

/-- What the code finds: the arrays, whether `END_OF_OPTIONS` is 1, the word at the cursor, the status of calls of functions
(`none`: there is no such function), and what `COMPREPLY` holds already. -/
structure Env where
  arrays : List Char → List (List Char)
  endOfOptions : Bool
  cur : List Char
  call : List Char → List (List Char) → Option Bool
  before : List (List Char)

/-- The array `opts`, what is added to `COMPREPLY`, and whether `nospace` is set. -/
structure State where
  opts : List (List Char) := []
  added : List (List Char) := []
  nospace : Bool := false
  deriving DecidableEq, Repr

/-- A word without expansions. -/
def literal (t : List Char) : Option (List Char) :=
  match Posix.words t with
  | some [w] => some w
  | _ => none

/-- The element of an array: from 0, negative numbers from the end; empty if there is none. -/
def element (a : List (List Char)) (n : Int) : List Char :=
  if 0 ≤ n then (a[n.toNat]?).getD []
  else if (-n).toNat ≤ a.length then (a[a.length - (-n).toNat]?).getD [] else []

/-- The words that a word stands for: `"${A[@]}"`, `"${A[@]: -1:1}"`, `"${A[N]}"`, `"${A[N],,}"`, or a literal word. -/
def expand (env : Env) (t : List Char) : Option (List (List Char)) :=
  match between "\"${".toList "}\"".toList t with
  | some u => (spanName u).bind (fun p =>
      if p.2 = "[@]".toList then some (env.arrays p.1)
      else if p.2 = "[@]: -1:1".toList then some ((env.arrays p.1).drop ((env.arrays p.1).length - 1))
      else match between "[".toList "]".toList p.2 with
        | some n => (Decimal.number n).map (fun n => [element (env.arrays p.1) n])
        | none => (between "[".toList "],,".toList p.2).bind (fun n => (Decimal.number n).map (fun n => [ZshText.small (element (env.arrays p.1) n)])))
  | none => (literal t).map (fun w => [w])

/-- All words. -/
def expandAll (env : Env) (ts : List (List Char)) : Option (List (List Char)) :=
  (BashText.allSome (ts.map (expand env))).map List.flatten

/-- A number: `${#A[@]}`, or a literal one. -/
def operand (env : Env) (t : List Char) : Option Int :=
  match between "${#".toList "[@]}".toList t with
  | some x => if isName x then some ((env.arrays x).length : Int) else none
  | none => Decimal.number t

/-- A sum. -/
def sum (env : Env) : List (List Char) → Option Int
  | [] => none
  | [t] => operand env t
  | t :: p :: r => if p = "+".toList then (operand env t).bind (fun a => (sum env r).map (fun b => a + b)) else none

/-- A part of an arithmetic expression between `&&`: the negation of a number, a comparison, or a sum, which is true if it is not 0. -/
def test (env : Env) (ts : List (List Char)) : Option Bool :=
  match ts with
  | [b, t] => if b = "!".toList then (operand env t).map (fun n => decide (n = 0)) else none
  | [a, op, b] =>
    if op = "+".toList then (sum env ts).map (fun n => decide (n ≠ 0))
    else (operand env a).bind (fun a => (operand env b).bind (fun b => ZshText.compares op a b))
  | ts => (sum env ts).map (fun n => decide (n ≠ 0))

/-- The parts between `&&`. -/
def splitAnd : List (List Char) → List (List (List Char))
  | [] => [[]]
  | w :: r => if w = "&&".toList then [] :: splitAnd r else match splitAnd r with
    | [] => [[w]]
    | p :: ps => (w :: p) :: ps

/-- An arithmetic expression. -/
def arithmetic (env : Env) (t : List Char) : Option Bool :=
  (BashText.allSome ((splitAnd (fields [] t)).map (test env))).map (fun bs => bs.all id)

/-- A simple command: whether it succeeds, and the state behind it. -/
def simple (env : Env) (s : State) : ZshText.Simple → Option (Bool × State)
  | .call ws => (expandAll env ws).bind (fun xs => match xs with
      | f :: args => (env.call f args).map (fun b => (b, s))
      | [] => none)
  | .arith t => (arithmetic env t).map (fun b => (b, s))
  | .append n els =>
    if n = "opts+=".toList then (expandAll env els).map (fun ws => (true, { s with opts := s.opts ++ ws })) else none

/-- A list of commands. -/
def exec (env : Env) : State → ShellGrammar.Expr ZshText.Simple → Option (Bool × State)
  | s, .atom a => simple env s a
  | s, .not e => (exec env s e).map (fun r => (!r.1, r.2))
  | s, .and e f => (exec env s e).bind (fun r => if r.1 then exec env r.2 f else some r)
  | s, .or e f => (exec env s e).bind (fun r => if r.1 then some r else exec env r.2 f)

/-- The characters that `compgen -W` and the word splitting behind it leave alone. -/
def Harmless (c : Char) : Prop := c.isAlphanum = true ∨ c ∈ ['-', '_', '=', '+', ':', ',', '.', '@', '%', '/']

instance (c : Char) : Decidable (Harmless c) := by unfold Harmless; infer_instance

/-- `compgen -W words -- cur`, and the words of its output. Known only for words of harmless characters. -/
def compgen (words : List (List Char)) (cur : List Char) : Option (List (List Char)) :=
  if ∀ w ∈ words, w ≠ [] ∧ ∀ c ∈ w, Harmless c then some (words.filter (fun w => decide (cur <+: w))) else none

/-- Run statements; `skip` counts the `if`s in a body that is not run. The result says whether the function has returned. -/
def run (env : Env) : Nat → State → List Stmt → Option (Bool × State)
  | _, s, [] => some (false, s)
  | k + 1, s, .ifOptions :: r => run env (k + 2) s r
  | k + 1, s, .ifArith _ :: r => run env (k + 2) s r
  | k + 1, s, .fi :: r => run env k s r
  | k + 1, s, _ :: r => run env (k + 1) s r
  | 0, s, .ifOptions :: r => if env.endOfOptions = false ∧ ['-'] <+: env.cur then run env 0 s r else run env 1 s r
  | 0, s, .ifArith t :: r => (arithmetic env t).bind (fun b => if b then run env 0 s r else run env 1 s r)
  | 0, s, .fi :: r => run env 0 s r
  | 0, s, .localOpts :: r => run env 0 { s with opts := [] } r
  | 0, s, .list ts :: r => (ShellGrammar.parse ts).bind (fun e => (exec env s e).bind (fun x => run env 0 x.2 r))
  | 0, s, .reply :: r => (compgen s.opts env.cur).bind (fun ws => run env 0 { s with added := s.added ++ ws } r)
  | 0, s, .nospace :: r =>
    run env 0 { s with nospace := s.nospace || decide (['='] <:+ ((env.before ++ s.added).head?).getD []) } r
  | 0, s, .ret :: _ => some (true, s)

/-- Run a text: whether the function has returned, and the state then. -/
def runText (env : Env) (t : List Char) : Option (Bool × State) := (read t).bind (run env 0 {})

end BashOffers
