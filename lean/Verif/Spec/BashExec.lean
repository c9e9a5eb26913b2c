import Verif.Spec.BashCode
/-!
# What the statements of a completer do in Bash (specification, independent of the model)

The state has the variables that the statements use. The commands that are called are a parameter (`Env`):
what they leave in `COMPREPLY` depends on their words, on what they can see (`View`), and on `COMPREPLY`.
-/

namespace BashExec
open BashCode

/-- What a command can see: the word that is completed, `PATH`, and the working directory. -/
structure View where
  cur : List Char
  path : List Char
  cwd : List Char
  deriving DecidableEq

/-- The commands: what is in `COMPREPLY` after a call, the words that `compgen` prints, the directory after
`pushd` (`none` if that fails), and whether a condition function accepts a key. -/
structure Env where
  call : List (List Char) → View → List (List Char) → List (List Char)
  gen : List (List Char) → View → List (List Char)
  enter : List Char → List Char → Option (List Char)
  accepts : List Char → List Char → View → Bool

/-- The state of the shell: `COMPREPLY`, `COMPREPLY_OLD`, `cur_old`, the directories of `pushd`, the array `a`,
the variable `c`, and whether a `{` … `}` is being left out. -/
structure Shell where
  view : View
  reply : List (List Char) := []
  old : List (List Char) := []
  curOld : List Char := []
  stack : List (List Char) := []
  array : List (List Char) := []
  cond : List Char := []
  skip : Bool := false
  deriving DecidableEq

/-- What is left of a text behind the last separator. -/
def afterLast (sep : List Char) : List Char → List Char
  | [] => []
  | c :: cs =>
    if sep.isPrefixOf (c :: cs) ∧ ¬ (List.range (cs.length + 1)).any (fun i => sep.isPrefixOf (cs.drop i)) then
      (c :: cs).drop sep.length
    else if (List.range (cs.length + 1)).any (fun i => sep.isPrefixOf (cs.drop i)) then afterLast sep cs
    else c :: cs

/-- A value made of pieces, where `none` stands for the earlier value. -/
def filled (value : List Char) : List (Option (List Char)) → List Char
  | [] => []
  | some p :: r => p ++ filled value r
  | none :: r => value ++ filled value r

/-- A statement. -/
def perform (env : Env) (st : Shell) : Stmt → Shell
  | .call ws => { st with reply := env.call ws st.view st.reply }
  | .callWith ws array =>
    { st with reply := env.call (ws ++ (if array = "COMPREPLY".toList then st.reply else st.array)) st.view st.reply }
  | .compgen append args => { st with reply := (if append then st.reply else []) ++ env.gen args st.view }
  | .saveReply => { st with old := st.reply }
  | .joinReply => { st with reply := st.old ++ st.reply }
  | .saveCur => { st with curOld := st.view.cur }
  | .cutCur sep => { st with view := { st.view with cur := afterLast sep st.view.cur } }
  | .restoreCur => { st with view := { st.view with cur := st.curOld } }
  | .path ps => { st with view := { st.view with path := filled st.view.path ps } }
  | .enter d =>
    match env.enter st.view.cwd d with
    | some c => { st with view := { st.view with cwd := c }, stack := st.view.cwd :: st.stack }
    | none => { st with skip := true }
  | .leave =>
    match st.stack with
    | d :: r => { st with view := { st.view with cwd := d }, stack := r }
    | [] => st
  | .close => st
  | .newArray => { st with array := [] }
  | .condition f => { st with cond := f }
  | .push none ws => { st with array := st.array ++ ws }
  | .push (some k) ws => if env.accepts st.cond k st.view then { st with array := st.array ++ ws } else st

/-- A statement, which is left out up to `}` if the directory could not be entered. -/
def exec1 (env : Env) (st : Shell) (s : Stmt) : Shell :=
  if st.skip then (if s = .close then { st with skip := false } else st) else perform env st s

/-- Statements, one after the other. -/
def exec (env : Env) : Shell → List Stmt → Shell
  | st, [] => st
  | st, s :: r => exec env (exec1 env st s) r

/-- What code offers when it starts with an empty `COMPREPLY`. -/
def offers (env : Env) (ss : List Stmt) (v : View) : List (List Char) := (exec env { view := v } ss).reply

/-- A command keeps some of the earlier results and adds its own. -/
def Ordinary (env : Env) (words : List (List Char)) : Prop :=
  ∃ (keeps : View → List Char → Bool) (adds : View → List (List Char)),
    ∀ v r, env.call words v r = r.filter (keeps v) ++ adds v

end BashExec
