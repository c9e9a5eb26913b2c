import Verif.Spec.FishCode
import Verif.Spec.ShellGrammar
/-!
# What Fish does when it runs a completion script (specification, independent of the model)

A script is a list of statements (`FishCode.read`). It sets local variables and calls the builtin `complete`, which
registers completions. References: the Fish manual, `complete` and `set`. Left out: everything else that a script can
do; a run fails (`none`) on it. One call of `complete` is one entry here, with all its option names; Fish makes one of
each name.
-/

namespace FishRun
open FishCode

/-- What one call of `complete` registers: for a command, under conditions, the names of options, a description,
whether an option needs an argument, whether files are offered beside (`-f`: no, `-F`: yes, whatever others say),
whether the order of the candidates is kept, and the candidates. -/
structure Entry where
  command : List Char
  conditions : List (List Char) := []
  shorts : List (List Char) := []
  longs : List (List Char) := []
  olds : List (List Char) := []
  description : Option (List Char) := none
  requires : Bool := false
  noFiles : Bool := false
  forceFiles : Bool := false
  keepOrder : Bool := false
  arguments : Option (List Char) := none
  deriving DecidableEq, Repr

/-- The variables, the entries, and which commands are completed like others. -/
structure State where
  vars : List (List Char × List Char) := []
  entries : List Entry := []
  wraps : List (List Char × List Char) := []
  deriving DecidableEq, Repr

/-- The value of a variable: the one set last. -/
def value (vars : List (List Char × List Char)) (name : List Char) : Option (List Char) :=
  (vars.find? (fun e => decide (e.1 = name))).map (·.2)

/-- The text of a word. -/
def expand (vars : List (List Char × List Char)) : List Seg → Option (List Char)
  | [] => some []
  | .ch c :: r => (expand vars r).map (c :: ·)
  | .exp n :: r => (value vars n).bind (fun v => (expand vars r).map (v ++ ·))
  | .sub _ :: _ => none

/-- The words of a call. -/
def wordsOf (vars : List (List Char × List Char)) : Stmt → Option (List (List Char))
  | [] => some []
  | .word w :: r => (expand vars w).bind (fun x => (wordsOf vars r).map (x :: ·))
  | _ :: _ => none

/-- What a call of `complete` asks for. -/
structure Request where
  command : Option (List Char) := none
  conditions : List (List Char) := []
  shorts : List (List Char) := []
  longs : List (List Char) := []
  olds : List (List Char) := []
  description : Option (List Char) := none
  arguments : Option (List Char) := none
  wraps : Option (List Char) := none
  letters : List Char := []

/-- An option with a value. -/
def withValue (r : Request) (o v : List Char) : Option Request :=
  if o = "-c".toList then some { r with command := some v }
  else if o = "-n".toList then some { r with conditions := r.conditions ++ [v] }
  else if o = "-s".toList then some { r with shorts := r.shorts ++ [v] }
  else if o = "-l".toList then some { r with longs := r.longs ++ [v] }
  else if o = "-o".toList then some { r with olds := r.olds ++ [v] }
  else if o = "-d".toList then some { r with description := some v }
  else if o = "-a".toList then some { r with arguments := some v }
  else if o = "-w".toList then some { r with wraps := some v }
  else none

/-- Options without value: letters of `rfFxke` behind a dash. -/
def withLetters (r : Request) : List Char → Option Request
  | '-' :: c :: cs => if (c :: cs).all ("rfFxke".toList.contains ·) then some { r with letters := r.letters ++ c :: cs } else none
  | _ => none

/-- The arguments of `complete`. -/
def request (r : Request) : List (List Char) → Option Request
  | [] => some r
  | [w] => withLetters r w
  | w :: v :: ws =>
    match withValue r w v with
    | some r' => request r' ws
    | none => (withLetters r w).bind (fun r' => request r' (v :: ws))

/-- The entry of a call. -/
def Request.entry (r : Request) (command : List Char) : Entry :=
  { command
    conditions := r.conditions
    shorts := r.shorts
    longs := r.longs
    olds := r.olds
    description := r.description
    requires := r.letters.contains 'r' || r.letters.contains 'x'
    noFiles := r.letters.contains 'f' || r.letters.contains 'x'
    forceFiles := r.letters.contains 'F'
    keepOrder := r.letters.contains 'k'
    arguments := r.arguments }

/-- A call of `complete`: `-e` erases the entries of a command, `-w` makes it complete like another one. -/
def complete (st : State) (ws : List (List Char)) : Option State := do
  let r ← request {} ws
  let c ← r.command
  if r.letters.contains 'e' then some { st with entries := st.entries.filter (fun e => decide (e.command ≠ c)) }
  else match r.wraps with
    | some w => some { st with wraps := st.wraps ++ [(c, w)] }
    | none => some { st with entries := st.entries ++ [r.entry c] }

/-- One statement. -/
def exec1 (st : State) (s : Stmt) : Option State := do
  match ← wordsOf st.vars s with
  | [cmd, flag, name, v] =>
    if cmd = "set".toList ∧ flag = "-l".toList then some { st with vars := (name, v) :: st.vars }
    else if cmd = "complete".toList then complete st [flag, name, v]
    else none
  | cmd :: args => if cmd = "complete".toList then complete st args else none
  | [] => none

/-- A script. -/
def exec : State → List Stmt → Option State
  | st, [] => some st
  | st, s :: r => (exec1 st s).bind (fun st => exec st r)

/-- Running the text of a script. -/
def runScript (st : State) (t : List Char) : Option State := (FishCode.read t).bind (exec st)

/-! ## Conditions

Fish runs the text of a condition when it completes. -/

/-- A word of literal characters. -/
def literal : List Seg → Option (List Char)
  | [] => some []
  | .ch c :: r => (literal r).map (c :: ·)
  | _ :: _ => none

/-- Where in a statement: at the start of a command, in a command, or behind `end`. -/
inductive Place where
  | start
  | command (words : List (List Char))
  | closed

open ShellGrammar in
/-- The tokens of a statement. `not` and `!` negate, `begin` and `end` enclose a group. (The reader does not tell
quoted words from others; quoted keywords would not be keywords.) -/
def conditionStmt : Place → Stmt → Option (List (ShellGrammar.Tok (List (List Char))))
  | .start, [] => none
  | .command ws, [] => some [.cmd ws]
  | .closed, [] => some []
  | .start, .word s :: r => do
    let w ← literal s
    if w = "not".toList ∨ w = "!".toList then (.bang :: ·) <$> conditionStmt .start r
    else if w = "begin".toList then (.lpar :: ·) <$> conditionStmt .start r
    else if w = "end".toList then (.rpar :: ·) <$> conditionStmt .closed r
    else conditionStmt (.command [w]) r
  | .command ws, .word s :: r => do conditionStmt (.command (ws ++ [← literal s])) r
  | .command ws, .and :: r => (fun l => .cmd ws :: .and :: l) <$> conditionStmt .start r
  | .command ws, .or :: r => (fun l => .cmd ws :: .or :: l) <$> conditionStmt .start r
  | .closed, .and :: r => (.and :: ·) <$> conditionStmt .start r
  | .closed, .or :: r => (.or :: ·) <$> conditionStmt .start r
  | _, _ :: _ => none

/-- The tokens of a condition. -/
def conditionTokens : List Stmt → Option (List (ShellGrammar.Tok (List (List Char))))
  | [] => some []
  | s :: r => do some ((← conditionStmt .start s) ++ (← conditionTokens r))

/-- The condition succeeds; `v` says which calls of commands do. -/
def Succeeds (v : List (List Char) → Bool) (t : List Char) : Prop :=
  ∃ ss ts, FishCode.read t = some ss ∧ conditionTokens ss = some ts ∧ ShellGrammar.run v ts = some true

/-- All conditions of the entry succeed. -/
def Entry.Active (v : List (List Char) → Bool) (e : Entry) : Prop := ∀ t ∈ e.conditions, Succeeds v t

/-- The options that an entry stands for. -/
def Entry.options (e : Entry) : List (List Char) :=
  e.shorts.map ('-' :: ·) ++ e.olds.map ('-' :: ·) ++ e.longs.map (fun l => '-' :: '-' :: l)

end FishRun
