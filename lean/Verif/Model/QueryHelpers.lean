import Verif.Model.When
/-!
# Model of the run-time helpers used by conditions

The shell functions `array_contains`, `array_contains_nocase`, `array_match`
(`bash_helpers.py` 227-249), the `option_is`/`has_option` commands of Zsh's `query`
(`zsh_helpers.py` 96-165) and of Fish (`fish_helpers.py` 281-390), and array access.
Regular expression matching is a parameter `rx nocase regex value`.
-/

namespace CC

/-- Compare with or without regard to letter case. -/
def sameText (nocase : Bool) (a b : Str) : Bool := if nocase then lower a == lower b else a == b

/-- The last element as a list of at most one element, or all: `"${V[@]: -1:1}"` / `"${V[@]}"`. -/
def lastOrAll (all : Bool) (vs : List Str) : List Str := if all then vs else vs.getLast?.toList

/-- Integer comparison of `(( a OP b ))` and of `test`. -/
def CmpOp.holds : CmpOp → Int → Int → Bool
  | .eq, a, b => a == b
  | .ne, a, b => a != b
  | .le, a, b => decide (a ≤ b)
  | .ge, a, b => decide (a ≥ b)
  | .lt, a, b => decide (a < b)
  | .gt, a, b => decide (a > b)

/-- The variables of the Bash completion script that conditions look at. -/
structure BashState where
  vars : Str → List Str
  positionals : List Str

/-- `"${A[i]}"` in Bash: counts from 0, negative indices count from the end, empty if absent. -/
def bashIndex (a : List Str) (i : Int) : Str :=
  let j := if i < 0 then a.length + i else i
  if j < 0 then [] else (a[j.toNat]?).getD []

/-- Exit status of the commands emitted by `bash_when.py`; `bash_helpers.py` 227-249. -/
def BashPrim.succeeds (rx : Bool → Str → Str → Bool) (σ : BashState) : BashPrim → Bool
  | .arrayContains nc v refs =>
    (refs.flatMap (fun r => lastOrAll r.all (σ.vars r.var))).any (fun w => sameText nc v w)
  | .arrayMatch nc re refs =>
    (refs.flatMap (fun r => lastOrAll r.all (σ.vars r.var))).any (fun w => rx nc re w)
  | .anySet vars => (vars.map (fun v => (σ.vars v).length)).sum != 0
  | .posCount op n => op.holds σ.positionals.length n
  | .posContains nc i values =>
    values.any (fun w => (if nc then lower (bashIndex σ.positionals i) else
      bashIndex σ.positionals i) == w)

/-- What the query helpers of Zsh and Fish know: options as typed with their values, in order,
and the positionals. -/
structure QueryState where
  having : List (Str × Str)
  positionals : List Str

/-- The loop over arguments of `option_is`, `zsh_helpers.py` 123-131: reads `-a`, `-i` until `--`.
(An argument that is none of these would make the loop spin forever; the model then returns
`none`.) -/
def queryFlags (any nocase : Bool) : List Str → Option (Bool × Bool × List Str)
  | [] => some (any, nocase, [])
  | a :: as =>
    if a = ['-', 'a'] then queryFlags true nocase as
    else if a = ['-', 'i'] then queryFlags any true as
    else if a = ['-', '-'] then some (any, nocase, as)
    else none

/-- The backward scan of `option_is`, `zsh_helpers.py` 150-164: the list is given last-first.
`test` checks a value. -/
def scanBack (any : Bool) (options : List Str) (test : Str → Bool) : List (Str × Str) → Bool
  | [] => false
  | (o, v) :: rest =>
    if options.contains o then
      if test v then true else if any then scanBack any options test rest else false
    else scanBack any options test rest

/-- `"${A[n]}"` in Zsh: counts from 1, 0 is empty, negative indices count from the end. -/
def zshIndex (a : List Str) (n : Int) : Str :=
  if n = 0 then [] else
  let j := if n < 0 then a.length + n else n - 1
  if j < 0 then [] else (a[j.toNat]?).getD []

/-- The semantics of `option_is ARGS` and `option_match ARGS` shared by Zsh and Fish. -/
def queryOptionTest (σ : QueryState) (test : Bool → List Str → Str → Bool) (args : List Str) : Bool :=
  match queryFlags false false args with
  | none => false
  | some (any, nocase, rest) =>
    scanBack any (splitAtDashes rest).1 (test nocase (splitAtDashes rest).2) σ.having.reverse

/-- Exit status of the commands emitted by `zsh_when.py`; `zsh_helpers.py` 96-165 and 327-380. -/
def QueryPrim.succeedsZsh (rx : Bool → Str → Str → Bool) (σ : QueryState) : QueryPrim → Bool
  | .optionIs args =>
    queryOptionTest σ (fun nc vals v => vals.any (fun w => sameText nc w v)) args
  | .optionMatch args =>
    queryOptionTest σ (fun nc vals v => match vals with | r :: _ => rx nc r v | [] => false) args
  | .hasOption args => σ.having.any (fun p => args.contains p.1)
  | .posCount op n => op.holds σ.positionals.length n
  | .posContains nc n values =>
    values.any (fun w => (if nc then lower (zshIndex σ.positionals n) else
      zshIndex σ.positionals n) == w)

/-- `contains -- $ARGS` of Fish: is the first argument among the others? -/
def fishContains : List Str → Bool
  | [] => false
  | k :: vs => vs.contains k

/-- Exit status of the commands emitted by `fish_conditions.py`; `fish_helpers.py` 248-480.
`$A[n]` of an absent element expands to no argument at all. Negative numbers count from the end. -/
def QueryPrim.succeedsFish (rx : Bool → Str → Str → Bool) (σ : QueryState) : QueryPrim → Bool
  | .optionIs args =>
    queryOptionTest σ (fun nc vals v => vals.any (fun w => sameText nc w v)) args
  | .optionMatch args =>
    queryOptionTest σ (fun nc vals v => match vals with | r :: _ => rx nc r v | [] => false) args
  | .hasOption args => σ.having.any (fun p => args.contains p.1)
  | .posCount op n => op.holds σ.positionals.length n
  | .posContains nc n values =>
    let p : List Str := if n = 0 then [] else
      let j := if n < 0 then σ.positionals.length + n else n - 1
      if j < 0 then [] else (σ.positionals[j.toNat]?).toList
    if nc then fishContains ((p ++ values).map lower) else fishContains (p ++ values)

end CC
