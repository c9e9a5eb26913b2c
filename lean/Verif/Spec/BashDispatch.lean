import Verif.Spec.BashArms
/-!
# What Bash does with `case "$prev"` and `case "$cur"` (specification, independent of the model)

The text is a list of `case` commands on the words `$prev` and `$cur`. A clause does nothing, or calls a function of the script and returns 0 if
the function succeeds, or has a loop that does this for the letters of `$cur`. What the functions do is given (`Env`).
The reader and the interpreter fail (`none`) on everything that is not described here.
References: the Bash manual, "Conditional Constructs" (`;;`, `;&`), "Looping Constructs", "Shell Parameter Expansion".
-/

namespace BashDispatch

open BashText (between without isName spanName allSome)
open BashArms (Line group groups empty)
open CC (readGlob caseCtx Glob)

/-- The arguments of the function: `"$prev"`, `"$cur"`, `"-${prev: -1}"`, `"${cur%%=*}"`, `"${cur#*=}"`. -/
inductive Word where
  | prev | cur | lastOfPrev | beforeEq | afterEq
  deriving DecidableEq, Repr

/-- A word at the beginning of a text. -/
def spanWord (t : List Char) : Option (Word × List Char) :=
  [("\"$prev\"", Word.prev), ("\"$cur\"", .cur), ("\"-${prev: -1}\"", .lastOfPrev), ("\"${cur%%=*}\"", .beforeEq), ("\"${cur#*=}\"", .afterEq)].findSome?
    (fun x => (without x.1.toList t).map (fun r => (x.2, r)))

/-- The value of a word. `${x: -1}` is the last character, `${x%%=*}` is what stands in front of the first `=`, and `${x#*=}` what stands behind it. -/
def Word.value (prev cur : List Char) : Word → List Char
  | .prev => prev
  | .cur => cur
  | .lastOfPrev => '-' :: prev.drop (prev.length - 1)
  | .beforeEq => cur.takeWhile (· != '=')
  | .afterEq => if '=' ∈ cur then (cur.dropWhile (· != '=')).drop 1 else cur

/-- What a clause does. The last argument of a call may be missing. -/
inductive Step where
  | nop
  /-- `f a b m && return 0` -/
  | call (f : List Char) (a b : Word) (m : List (List Char))
  /-- `for ((i=2; i <= ${#cur}; ++i)); do local pre="${cur:0:$i}" value="${cur:$i}"; f "-${pre: -1}" "$value" m && { h "$pre"; return 0; }; done` -/
  | loop (f h : List Char) (m : List (List Char))
  deriving DecidableEq, Repr

/-- ` m`, or nothing -/
def readMode (t : List Char) : Option (List (List Char)) :=
  if t = [] then some [] else (without " ".toList t).bind (fun m => if isName m then some [m] else none)

/-- `f a b m && return 0` -/
def readCall (l : Line) : Option Step :=
  (spanName l).bind (fun p => (without " ".toList p.2).bind (fun t => (spanWord t).bind (fun a => (without " ".toList a.2).bind (fun t => (spanWord t).bind (fun b =>
    (between [] " && return 0".toList b.2).bind (fun t => (readMode t).map (fun m => .call p.1 a.1 b.1 m)))))))

/-- The lines of the loop. -/
def readLoop (ls : List Line) : Option Step :=
  match ls with
  | [l1, l2, l3, l4, l5, l6, l7, l8] =>
    if l1 = "local i".toList ∧ l2 = "for ((i=2; i <= ${#cur}; ++i)); do".toList ∧ l3 = "local pre=\"${cur:0:$i}\" value=\"${cur:$i}\"".toList ∧
        l6 = "return 0".toList ∧ l7 = "}".toList ∧ l8 = "done".toList then
      (spanName l4).bind (fun p => (between " \"-${pre: -1}\" \"$value\"".toList " && {".toList p.2).bind (fun t => (readMode t).bind (fun m =>
        (between [] " \"$pre\"".toList l5).bind (fun h => if isName h then some (.loop p.1 h m) else none))))
    else none
  | _ => none

/-- The commands of a clause. -/
def readStep (ls : List Line) : Option Step :=
  match ls with
  | [] => some .nop
  | [l] => readCall l
  | _ => readLoop ls

/-- A clause: the pattern, what it does, and whether it ends with `;&`. -/
structure Clause where
  pattern : List Char
  step : Step
  through : Bool
  deriving DecidableEq, Repr

/-- The lines of a clause without blanks in front and without empty lines, and without `;;` or `;&` at the end. -/
def readEnd (ls : List Line) : Option (List Line × Bool) :=
  ls.getLast?.bind (fun l => match between [] ";;".toList l with
    | some u => some ((ls.dropLast ++ [u]).filter (· != []), false)
    | none => (between [] ";&".toList l).map (fun u => ((ls.dropLast ++ [u]).filter (· != []), true)))

/-- A clause. -/
def readClause (x : Line × List Line) : Option Clause :=
  (BashCalls.spanPattern [] x.1).bind (fun p => (readEnd (((p.2 :: x.2).map BashOffers.trimmed).filter (· != []))).bind (fun y =>
    (readStep y.1).map (fun s => ⟨p.1, s, y.2⟩)))

/-- `case "$prev" in` or `case "$cur" in`, clauses at column 2, and `esac`. -/
def readCases : List (Line × List Line) → Option (List (Word × List Clause))
  | [] => some []
  | (h, b) :: (e, s) :: r =>
    if e = "esac".toList ∧ empty s then
      (if h = "case \"$prev\" in".toList then some Word.prev else if h = "case \"$cur\" in".toList then some Word.cur else none).bind (fun w =>
        (groups 2 b).bind (fun gs => (allSome (gs.map readClause)).bind (fun cs => (readCases r).map ((w, cs) :: ·))))
    else none
  | _ => none

/-- The lines of a text. -/
def read (t : List Char) : Option (List (Word × List Clause)) := (groups 0 (CC.splitOn '\n' t)).bind readCases

/-- The functions of the script: what a call finds and whether it succeeds; and what a function makes of what was found. -/
structure Env (ε : Type) where
  call : List Char → List (List Char) → Option (List ε × Bool)
  prefixed : List Char → List Char → List ε → Option (List ε)

/-- The loop: `pre` are the letters up to the last one that was tried, then come the letters that are left. -/
def loop {ε : Type} (env : Env ε) (f h : List Char) (m : List (List Char)) (pre : List Char) : List Char → Option (List ε × Bool)
  | [] => some ([], false)
  | c :: value => (env.call f (['-', c] :: value :: m)).bind (fun r =>
      if r.2 then (env.prefixed h (pre ++ [c]) r.1).map (fun es => (es, true))
      else (loop env f h m (pre ++ [c]) value).map (fun q => (r.1 ++ q.1, q.2)))

/-- What a clause finds, and whether it returned 0. -/
def Step.run {ε : Type} (env : Env ε) (prev cur : List Char) : Step → Option (List ε × Bool)
  | .nop => some ([], false)
  | .call f a b m => env.call f (a.value prev cur :: b.value prev cur :: m)
  | .loop f h m => BashDispatch.loop env f h m (cur.take 1) (cur.drop 1)

open Classical in
/-- The clauses from the first one on whose pattern matches. -/
noncomputable def select (w : List Char) : List Clause → Option (List Clause)
  | [] => some []
  | c :: r => (readGlob caseCtx c.pattern).bind (fun alts => if Glob.AltLang alts w then some (c :: r) else select w r)

/-- The clause, and the next one without looking at its pattern if it ends with `;&`. -/
def runFrom {ε : Type} (env : Env ε) (prev cur : List Char) : List Clause → Option (List ε × Bool)
  | [] => some ([], false)
  | c :: r => (c.step.run env prev cur).bind (fun x =>
      if x.2 then some x
      else if c.through then (runFrom env prev cur r).map (fun q => (x.1 ++ q.1, q.2))
      else some x)

/-- One command after the other. -/
noncomputable def runAll {ε : Type} (env : Env ε) (prev cur : List Char) : List (Word × List Clause) → Option (List ε × Bool)
  | [] => some ([], false)
  | c :: r => ((select (c.1.value prev cur) c.2).bind (runFrom env prev cur)).bind (fun x =>
      if x.2 then some x else (runAll env prev cur r).map (fun q => (x.1 ++ q.1, q.2)))

/-- Run a text: what it finds, and whether it returned 0. -/
noncomputable def runText {ε : Type} (env : Env ε) (t : List Char) (prev cur : List Char) : Option (List ε × Bool) := (read t).bind (runAll env prev cur)

end BashDispatch
