import Verif.Spec.BashText
import Verif.Spec.Posix
/-!
# How Bash functions call each other (specification, independent of the model)

A script is a list of functions. Each has a text that decides whether another function is called, and a rest that is known
only by what it does. The text is read line by line: `if (( 1 < ${#X[@]} )); then`, `case "${X[1]}" in`, clauses, `esac`, `fi`;
a clause is a pattern and a list of calls and `return` with `&&` and `||`. The reader fails (`none`) on everything else.
References: the Bash manual, "Lists of Commands", "Conditional Constructs", "Shell Functions", "Programmable Completion Builtins"
(`complete`).
-/

namespace BashCalls

open BashText

/-- `return 0`, `return 1`, and the call of a function without arguments. -/
inductive Simple where
  | ret (ok : Bool)
  | call (f : List Char)
  deriving DecidableEq, Repr

/-- A simple command. Names of functions begin with `_`, so that no word of Bash's own is meant. -/
def readSimple (ws : List (List Char)) : Option Simple :=
  match ws with
  | [w] => if isName w ∧ w.head? = some '_' then some (.call w) else none
  | [w, n] =>
    if w = "return".toList ∧ n = "0".toList then some (.ret true)
    else if w = "return".toList ∧ n = "1".toList then some (.ret false)
    else none
  | _ => none

/-- The words before the first `&&` or `||`, and the words behind each of them; `true` for `&&`. -/
def cut : List (List Char) → List (List Char) × List (Bool × List (List Char))
  | [] => ([], [])
  | w :: r =>
    if w = "&&".toList then ([], (true, (cut r).1) :: (cut r).2)
    else if w = "||".toList then ([], (false, (cut r).1) :: (cut r).2)
    else (w :: (cut r).1, (cut r).2)

/-- A list of commands. The first stands behind `&&`: it is run. -/
abbrev AndOr := List (Bool × Simple)

/-- A list of commands; it may be empty. -/
def readAndOr (ws : List (List Char)) : Option AndOr :=
  if ws = [] then some []
  else allSome (((true, (cut ws).1) :: (cut ws).2).map (fun p => (readSimple p.2).map (fun s => (p.1, s))))

/-- The pattern in front of a `)`, and what stands behind. `t` was read already. -/
def spanPattern (t : List Char) : List Char → Option (List Char × List Char)
  | [] => none
  | c :: r => match CC.gread CC.caseCtx {} (t ++ [c]) with
    | some _ => spanPattern (t ++ [c]) r
    | none => if c = ')' ∧ (CC.readGlob CC.caseCtx t).isSome ∧ t ≠ "esac".toList then some (t, r) else none

/-- A clause on a line. -/
def readClause (l : List Char) : Option (List Char × AndOr) :=
  (spanPattern [] l).bind (fun p => (between [] ";;".toList p.2).bind (fun u => (readAndOr (fields [] u)).map (fun a => (p.1, a))))

/-- `if (( index < ${#array[@]} )); then case "${word[place]}" in clauses esac; fi` -/
structure Dispatch where
  index : Nat
  array : List Char
  place : Nat
  word : List Char
  clauses : List (List Char × AndOr)
  deriving DecidableEq, Repr

/-- `if (( 1 < ${#x[@]} )); then` -/
def readIf (l : List Char) : Option (Nat × List Char) :=
  match (between "if (( ".toList " )); then".toList l).map (fields []) with
  | some [n, lt, x] =>
    if lt = "<".toList then
      (Decimal.digits n).bind (fun n => ((between "${#".toList "[@]}".toList x).filter isName).map (fun x => (n, x)))
    else none
  | _ => none

/-- `case "${x[1]}" in` -/
def readCase (l : List Char) : Option (Nat × List Char) :=
  (between "case \"${".toList "]}\" in".toList l).bind (fun u => (spanName u).bind (fun p =>
    (without "[".toList p.2).bind (fun n => (Decimal.digits n).map (fun n => (n, p.1)))))

/-- The text. Blanks at the beginning of lines mean nothing. -/
def readDispatch (t : List Char) : Option Dispatch :=
  match (CC.splitOn '\n' t).map (fun l => l.dropWhile (· == ' ')) with
  | a :: b :: r =>
    if r.getLast? = some "fi".toList ∧ r.dropLast.getLast? = some "esac".toList then
      (readIf a).bind (fun i => (readCase b).bind (fun w => (allSome (r.dropLast.dropLast.map readClause)).map (fun c =>
        { index := i.1, array := i.2, place := w.1, word := w.2, clauses := c })))
    else none
  | _ => none

/-- What a call does: what it offers, and whether its status is 0. -/
abbrev Result (α : Type) := List α × Bool

/-- What commands have done: they have offered something; `ended` says whether the function has returned; the status. -/
structure Done (α : Type) where
  offers : List α
  ended : Bool
  ok : Bool

/-- Run a list of commands. `d` is what was done before. -/
def runAndOr {α : Type} (call : List Char → Option (Result α)) : AndOr → Done α → Option (Done α)
  | [], d => some d
  | (op, s) :: r, d =>
    if d.ended then some d
    else if op = d.ok then match s with
      | .ret ok => some { d with ended := true, ok := ok }
      | .call f => (call f).bind (fun x => runAndOr call r { d with offers := d.offers ++ x.1, ok := x.2 })
    else runAndOr call r d

open Classical in
/-- The first clause with a pattern that matches. -/
noncomputable def choose (w : List Char) : List (List Char × AndOr) → Option AndOr
  | [] => some []
  | (p, a) :: r => (CC.readGlob CC.caseCtx p).bind (fun alts => if CC.Glob.AltLang alts w then some a else choose w r)

/-- Run the text. `vars` are the values of arrays. -/
noncomputable def Dispatch.run {α : Type} (call : List Char → Option (Result α)) (vars : List Char → List (List Char)) (d : Dispatch) : Option (Done α) :=
  if d.index < (vars d.array).length then
    (choose ((vars d.word).getD d.place []) d.clauses).bind (fun a => runAndOr call a { offers := [], ended := false, ok := true })
  else some { offers := [], ended := false, ok := true }

/-- A function: its name, the text that may call another function, and what the rest of it does. -/
structure Function (α : Type) where
  name : List Char
  text : Option (List Char)
  rest : Option (Result α)

/-- Call a function. If there are several with the name, the last definition counts; if there is none, Bash says so and the
status is not 0. `n` bounds the depth of calls. -/
noncomputable def call {α : Type} (script : List (Function α)) (vars : List Char → List (List Char)) : Nat → List Char → Option (Result α)
  | 0, _ => none
  | n + 1, f => match script.reverse.find? (fun g => decide (g.name = f)) with
    | none => some ([], false)
    | some g => match g.text with
      | none => g.rest
      | some t => (readDispatch t).bind (fun d => (d.run (call script vars n) vars).bind (fun r =>
          if r.ended then some (r.offers, r.ok) else g.rest.map (fun x => (r.offers ++ x.1, x.2))))

/-- `complete -F function names`: the function and the commands that are completed with it. -/
def readComplete (l : List Char) : Option (List Char × List (List Char)) :=
  match Posix.words l with
  | some (c :: o :: f :: names) => if c = "complete".toList ∧ o = "-F".toList then some (f, names) else none
  | _ => none

end BashCalls
