import Verif.Spec.BashBlocks
import Verif.Spec.BashCalls
/-!
# What Bash does with a function made of `case "$opt"` statements (specification, independent of the model)

The function is read line by line. Its statements begin at column 2, the clauses of a `case` at column 4; lines that are deeper, and
empty lines, belong to the line in front of them. What stands in a clause is not interpreted: the result of running the function is the
lines that are run, with the value of `cur` at this time. They have to be complete commands that do not return and leave the variables
of the function alone. Because the last of them may be followed by `;;`, it must not end with `;` or a backslash, and must have no comment.
The reader and the interpreter fail (`none`) on everything that is not described here.
References: the Bash manual, "Conditional Constructs", "Pattern Matching", "Shell Functions", "Bash Builtins" (`local`, `return`).
-/

namespace BashArms

open BashText (between isName fields allSome)
open BashOffers (Env)

abbrev Line := List Char

/-- Lines that begin at column `n`, each with the deeper and empty lines behind it; in front of them, such lines without a first line. -/
def group (n : Nat) : List Line → Option (List Line × List (Line × List Line))
  | [] => some ([], [])
  | l :: r => (group n r).bind (fun x =>
      if l = [] ∨ List.replicate (n + 1) ' ' <+: l then some (l :: x.1, x.2)
      else if List.replicate n ' ' <+: l then some ([], (l.drop n, x.1) :: x.2)
      else none)

/-- All lines have to belong to a line at column `n`. -/
def groups (n : Nat) (ls : List Line) : Option (List (Line × List Line)) :=
  (group n ls).bind (fun x => if x.1 = [] then some x.2 else none)

/-- Lines without anything on them. -/
def empty (ls : List Line) : Bool := ls.all (fun l => l == [])

/-- A comment begins with `#` at the beginning of a line or behind a blank. -/
def comment : Bool → Line → Bool
  | _, [] => false
  | start, c :: r => (start && c == '#') || comment (c == ' ' || c == '\t') r

/-- Foreign lines: `;;` or a line break may follow. -/
def foreign (ls : List Line) : Option (List Line) :=
  match ls.getLast? with
  | none => some []
  | some l =>
    if comment true l then none
    else match l.getLast? with
      | none => none
      | some c => if c = ';' ∨ c = '\\' then none else some ls

/-- What a clause does: it runs lines, and returns 0 if `ret`; or it sets `ret` to 1. -/
inductive Act where
  | code (ls : List Line) (ret : Bool)
  | setRet
  deriving DecidableEq, Repr

/-- Lines, perhaps with `return 0` as the last one. -/
def readLines (ls : List Line) : Option Act :=
  if (ls.getLast?.map BashOffers.trimmed) = some "return 0".toList then (foreign ls.dropLast).map (fun x => .code x true)
  else (foreign ls).map (fun x => .code x false)

/-- A clause: a pattern, and behind `)` the commands with `;;` at their end. -/
def readClause (x : Line × List Line) : Option (List Char × Act) :=
  (BashCalls.spanPattern [] x.1).bind (fun p =>
    if p.2 = ";;".toList ∧ empty x.2 then some (p.1, .code [] false)
    else if p.2 = " ret=1;;".toList ∧ empty x.2 then some (p.1, .setRet)
    else if p.2 = [] then
      (x.2.getLast?).bind (fun l => (between [] ";;".toList l).bind (fun l => (readLines (x.2.dropLast ++ [l])).map (fun a => (p.1, a))))
    else none)

/-- The value of a local variable: an argument of the function, or a number. -/
inductive Value where
  | arg (n : Nat)
  | lit (t : List Char)
  deriving DecidableEq, Repr

/-- `name="$1"` or `name=0` -/
def readLocal (w : List Char) : Option (List Char × Value) :=
  (BashText.spanName w).bind (fun p => match between "=\"$".toList "\"".toList p.2 with
    | some n => (Decimal.digits n).map (fun n => (p.1, .arg n))
    | none => (BashText.without "=".toList p.2).bind (fun t => (Decimal.digits t).map (fun _ => (p.1, .lit t))))

/-- The statements of the function. -/
inductive Stmt where
  /-- `local x="$1" y=0` -/
  | locals (vs : List (List Char × Value))
  /-- `case "$opt" in ... esac` -/
  | cases (cl : List (List Char × Act))
  /-- `case "$opt" in p) if e; then ...; return 0; fi;; esac` -/
  | ifCase (p : List Char) (e : ShellGrammar.Expr ZshText.Simple) (ls : List Line)
  /-- `(( ! ret )) && return 0` -/
  | found
  /-- `[[ "$mode" == w ]] || return 1` -/
  | mode (w : List Char)
  /-- `ret=0` -/
  | clear
  /-- `return 1` -/
  | fail
  /-- `return $ret` -/
  | ret

/-- A list of commands (`condition` reads it in front of `&&`). -/
def readList (t : List Char) : Option (ShellGrammar.Expr ZshText.Simple) := BashBlocks.condition (t ++ " && ".toList)

/-- A statement that is one line. -/
def readSimple (l : Line) : Option Stmt :=
  if l = "(( ! ret )) && return 0".toList then some .found
  else if l = "ret=0".toList then some .clear
  else if l = "return 1".toList then some .fail
  else if l = "return $ret".toList then some .ret
  else match between "[[ \"$mode\" == ".toList " ]] || return 1".toList l with
    | some w => if isName w then some (.mode w) else none
    | none => match BashText.without "local ".toList l with
      | some u => (allSome ((fields [] u).map readLocal)).map .locals
      | none => none

/-- `if e; then`, lines, `return 0`, `fi;;` -/
def readIf (p : List Char) (ls : List Line) : Option Stmt :=
  (groups 4 ls).bind (fun gs => match gs with
    | [(h, b), (f, e)] =>
      if f = "fi;;".toList ∧ e = [] then
        (between "if ".toList "; then".toList h).bind (fun t => (readList t).bind (fun c => (readLines b).bind (fun a => match a with
          | .code x true => some (.ifCase p c x)
          | _ => none)))
      else none
    | _ => none)

/-- The statements. `esac` ends a `case`. -/
def readStmts : List (Line × List Line) → Option (List Stmt)
  | [] => some []
  | (h, b) :: r =>
    match BashText.without "case \"$opt\" in".toList h with
    | some [] => match r with
      | (e, b') :: r' =>
        if e = "esac".toList ∧ empty b' then
          (groups 4 b).bind (fun gs => (allSome (gs.map readClause)).bind (fun cl => (readStmts r').map (fun ss => .cases cl :: ss)))
        else none
      | [] => none
    | some (' ' :: u) => match r with
      | (e, b') :: r' =>
        if e = "esac".toList ∧ empty b' then
          (BashCalls.spanPattern [] u).bind (fun p => if p.2 = [] then (readIf p.1 b).bind (fun s => (readStmts r').map (fun ss => s :: ss)) else none)
        else none
      | [] => none
    | some _ => none
    | none => if empty b then (readSimple h).bind (fun s => (readStmts r).map (fun ss => s :: ss)) else none

/-- A function: its name and its statements. -/
def read (t : List Char) : Option (List Char × List Stmt) :=
  match CC.splitOn '\n' t with
  | h :: r =>
    if r.getLast? = some "}".toList then
      (between [] "() {".toList h).bind (fun f => if isName f then (groups 2 r.dropLast).bind (fun gs => (readStmts gs).map (fun ss => (f, ss))) else none)
    else none
  | [] => none

/-- The variables of the function. -/
abbrev Vars := List Char → Option (List Char)

def Vars.set (σ : Vars) (x v : List Char) : Vars := fun y => if y = x then some v else σ y

/-- The value of a local variable. An argument that is not there is empty. -/
def Value.get (args : List (List Char)) : Value → List Char
  | .arg n => if n = 0 then [] else args.getD (n - 1) []
  | .lit t => t

open Classical in
/-- The first clause with a pattern that matches. -/
noncomputable def choose (w : List Char) : List (List Char × Act) → Option (Option Act)
  | [] => some none
  | (p, a) :: r => (CC.readGlob CC.caseCtx p).bind (fun alts => if CC.Glob.AltLang alts w then some (some a) else choose w r)

/-- Run statements: the lines of the clauses that are entered, each with the value of `cur`, and whether 0 is returned. -/
noncomputable def run (env : Env) (args : List (List Char)) : Vars → List Stmt → Option (List (List Line × List Char) × Bool)
  | _, [] => none
  | σ, .locals vs :: r => run env args (vs.foldl (fun σ v => σ.set v.1 (v.2.get args)) σ) r
  | σ, .cases cl :: r => (σ "opt".toList).bind (fun opt => (σ "cur".toList).bind (fun cur => (choose opt cl).bind (fun a => match a with
      | none => run env args σ r
      | some .setRet => run env args (σ.set "ret".toList "1".toList) r
      | some (.code ls true) => some ([(ls, cur)], true)
      | some (.code ls false) => (run env args σ r).map (fun x => ((ls, cur) :: x.1, x.2)))))
  | σ, .ifCase p e ls :: r => (σ "opt".toList).bind (fun opt => (σ "cur".toList).bind (fun cur => (choose opt [(p, .code ls true)]).bind (fun a => match a with
      | none => run env args σ r
      | some _ => (BashBlocks.succeeds env e).bind (fun b => if b then some ([(ls, cur)], true) else run env args σ r))))
  | σ, .found :: r => (σ "ret".toList).bind (fun v =>
      if v = "0".toList then some ([], true) else if v = "1".toList then run env args σ r else none)
  | σ, .mode w :: r => (σ "mode".toList).bind (fun m => if m = w then run env args σ r else some ([], false))
  | σ, .clear :: r => run env args (σ.set "ret".toList "0".toList) r
  | _, .fail :: _ => some ([], false)
  | σ, .ret :: _ => (σ "ret".toList).bind (fun v => if v = "0".toList then some ([], true) else if v = "1".toList then some ([], false) else none)

/-- Call the function that a text defines. -/
noncomputable def call (env : Env) (t : List Char) (args : List (List Char)) : Option (List (List Line × List Char) × Bool) :=
  (read t).bind (fun f => run env args (fun _ => none) f.2)

end BashArms
