import Verif.Model.When
import Verif.Model.QueryHelpers
/-!
# Model of the condition objects and of `Conditions` in `crazy_complete/fish_conditions.py`

The text of a condition is given as tokens of the and-or grammar over primitive commands.
-/

namespace CC

open ShellGrammar (Tok)

/-- Condition classes, `fish_conditions.py` 49-199. `prim` are `HasOption`, `OptionIs`,
`OptionMatch`, `PositionalNum` and `PositionalContains`. -/
inductive FishCond where
  | prim (p : QueryPrim)
  | hidden (options : List Str)
  | not (c : FishCond)
  deriving DecidableEq, Repr

/-- The primitive commands in the text of a condition. -/
inductive FishPrim where
  | prim (p : QueryPrim)
  | hidden (options : List Str)
  deriving DecidableEq, Repr

/-- `get_code` of the classes, as tokens (`not X` for `Not`, line 56). -/
def FishCond.code : FishCond → List (Tok FishPrim)
  | .prim p => [.cmd (.prim p)]
  | .hidden os => [.cmd (.hidden os)]
  | .not c => .bang :: c.code

/-- `isinstance(condition, PositionalContains)`, line 246. -/
def FishCond.isPosContains : FishCond → Bool
  | .prim (.posContains ..) => true
  | _ => false

/-- `isinstance(condition, PositionalNum)`, line 248. -/
def FishCond.isPosNum : FishCond → Bool
  | .prim (.posCount ..) => true
  | _ => false

/-- `isinstance(condition, (HasHiddenOption, HasOption))`, line 250. -/
def FishCond.isHasOption : FishCond → Bool
  | .prim (.hasOption ..) => true
  | .hidden _ => true
  | _ => false

/-- The loop of `Conditions._optimized_conditions`, lines 245-253, with its four lists. -/
def optimizeLoop : List FishCond → List FishCond × List FishCond × List FishCond × List FishCond
  | [] => ([], [], [], [])
  | c :: cs =>
    let r := optimizeLoop cs
    if c.isPosContains then (c :: r.1, r.2.1, r.2.2.1, r.2.2.2)
    else if c.isPosNum then (r.1, c :: r.2.1, r.2.2.1, r.2.2.2)
    else if c.isHasOption then (r.1, r.2.1, c :: r.2.2.1, r.2.2.2)
    else (r.1, r.2.1, r.2.2.1, c :: r.2.2.2)

/-- `Conditions._optimized_conditions`, lines 239-261. -/
def optimizedConditions (cs : List FishCond) : List FishCond :=
  let r := optimizeLoop cs
  r.2.1 ++ r.1 ++ r.2.2.1 ++ r.2.2.2

/-- `Conditions.get_conditions`, lines 263-282: one text per `-n` flag; `when` is empty or the
parsed `when` expression (`add_when`, lines 294-300). -/
def getConditions (cs : List FishCond) (when_ : List (Tok Cond)) :
    Except Err (List (List (Tok FishPrim))) :=
  let texts := (optimizedConditions cs).map FishCond.code
  if when_.isEmpty then .ok texts
  else match genTokens (fun c => (queryCond false c).map (·.map (fun t => match t with
        | .cmd p => .cmd (FishPrim.prim p) | .bang => .bang | .lpar => .lpar | .rpar => .rpar
        | .and => .and | .or => .or))) when_ with
    | .ok code => .ok (texts ++ [code])
    | .error e => .error e

/-- Exit status of a primitive command; `hiddenGiven` is the incomplete-option test of
`has_option WITH_INCOMPLETE`. -/
def FishPrim.succeeds (rx : Bool → Str → Str → Bool) (hiddenGiven : List Str → Bool)
    (σ : QueryState) : FishPrim → Bool
  | .prim p => p.succeedsFish rx σ
  | .hidden os => hiddenGiven os

end CC
