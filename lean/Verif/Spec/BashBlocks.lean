import Verif.Spec.BashOffers
/-!
# What Bash does with blocks that end with `return 0;` (specification, independent of the model)

The code consists of blocks

    CONDITION && {
      ...
      return 0;
    }

with blank lines between them. What stands in a block is not interpreted: the result of running the code is the lines of the block that
is entered. A line `}` at the beginning of a line ends the block; this is how Bash reads it if the lines of the block are complete
commands. The condition is a list of commands, read and run as in `Spec/BashOffers.lean`; in `(( ))` there may be `||`.
-/

namespace BashBlocks

open BashOffers (Env)

/-- The blocks: what stands in front of `{`, and the lines between `{` and `}`. `cur` is the block whose lines are being read. -/
def blocks : Option (List Char × List (List Char)) → List (List Char) → Option (List (List Char × List (List Char)))
  | none, [] => some []
  | some _, [] => none
  | none, l :: r => if l = [] then blocks none r else (BashText.between [] "{".toList l).bind (fun h => blocks (some (h, [])) r)
  | some (h, b), l :: r => if l = "}".toList then (blocks none r).map (fun x => (h, b) :: x) else blocks (some (h, b ++ [l])) r

/-- The list of commands in front of the last `&&`. -/
def condition (h : List Char) : Option (ShellGrammar.Expr ZshText.Simple) :=
  (ZshText.tokens h).bind (fun ts => (ZshText.scan .start ts).bind (fun x => match x.2 with
    | .start => if x.1.getLast? = some .and then ShellGrammar.parse x.1.dropLast else none
    | _ => none))

/-- The parts between `||`. -/
def splitOr : List (List Char) → List (List (List Char))
  | [] => [[]]
  | w :: r => if w = "||".toList then [] :: splitOr r else match splitOr r with
    | [] => [[w]]
    | p :: ps => (w :: p) :: ps

/-- An arithmetic expression: `&&` binds stronger than `||`. -/
def arithmetic (env : Env) (t : List Char) : Option Bool :=
  (BashText.allSome ((splitOr (BashText.fields [] t)).map (fun ts =>
    (BashText.allSome ((BashOffers.splitAnd ts).map (BashOffers.test env))).map (fun bs => bs.all id)))).map (fun bs => bs.any id)

/-- Whether a simple command succeeds. -/
def simple (env : Env) : ZshText.Simple → Option Bool
  | .call ws => (BashOffers.simple env {} (.call ws)).map (·.1)
  | .arith t => arithmetic env t
  | .append _ _ => none

/-- Whether a list of commands succeeds. -/
def succeeds (env : Env) : ShellGrammar.Expr ZshText.Simple → Option Bool
  | .atom a => simple env a
  | .not e => (succeeds env e).map (fun b => !b)
  | .and e f => (succeeds env e).bind (fun b => if b then succeeds env f else some false)
  | .or e f => (succeeds env e).bind (fun b => if b then some true else succeeds env f)

/-- Run blocks: the lines in front of `return 0;` of the first block whose condition succeeds, if there is one. -/
def run (env : Env) : List (List Char × List (List Char)) → Option (Option (List (List Char)))
  | [] => some none
  | (h, b) :: r => (condition h).bind (fun e => (succeeds env e).bind (fun s =>
      if s then (if b.getLast? = some "  return 0;".toList then some (some b.dropLast) else none) else run env r))

/-- Run a text: `some none` if no block is entered (the code behind the text goes on), `some (some ls)` if the lines `ls` are run and the
function returns 0. -/
def runText (env : Env) (t : List Char) : Option (Option (List (List Char))) := (blocks none (CC.splitOn '\n' t)).bind (run env)

end BashBlocks
