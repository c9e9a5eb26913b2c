import Verif.Model.BashKeyValue
/-!
# Model of the Fish helpers `get_completing_arg`, `list` and `prefix`

A line `VALUE<tab>DESCRIPTION` that a command prints is a candidate, a pair. A command is a function of
`$__QUERY_CACHE_CURRENT_ARG` and `$__fish_stripprefix`; it gives the candidates and what `$__fish_stripprefix` is
afterwards (`eval` and command substitutions run in the same shell, so the variable is kept).
(Simplifications: separators are one character, as the validator asks, and not a backslash; values and the text that is
typed contain no tab and no line break.)
-/

namespace CC

/-- What is in the variable `$__fish_stripprefix`: a regular expression of one of two forms. -/
inductive Strip where
  /-- `"^.*"(string escape --style=regex -- $separator)` -/
  | upTo (sep : Char)
  /-- `"^"(string escape --style=regex -- $prefix)` -/
  | lead (p : Str)
  deriving DecidableEq, Repr

/-- `get_completing_arg`, `fish_helpers.py` 512-518. `.*` is greedy, so the text up to the last separator is removed. -/
def completingArg (st : Option Strip) (arg : Str) : Str :=
  match st with
  | none => arg
  | some (.upTo sep) => behindLast [sep] arg
  | some (.lead p) => if p.isPrefixOf arg then arg.drop p.length else arg

/-- A command, see above. -/
abbrev FishAction := Str → Option Strip → List (Str × Str) × Option Strip

/-- A command that prints candidates for the text that is being completed, such as `filedir`; it does not touch the
variable. -/
def fishLeaf (g : Str → List (Str × Str)) : FishAction := fun arg st => (g (completingArg st arg), st)

/-- `case "*$separator"`, `fish_helpers.py` 626; `*` and `?` are wildcards. -/
def caseEnds (sep : Char) (comp : Str) : Bool := sep = '*' || sep = '?' || comp.getLast? = some sep

/-- The text before each value, `fish_helpers.py` 625-645. -/
def listHead (sep : Char) (comp : Str) : Str :=
  if caseEnds sep comp then comp
  else if comp.contains sep then (comp.reverse.dropWhile (· != sep)).tail.reverse ++ [sep]
  else []

/-- `list [-d] SEPARATOR FUNCTION`, `fish_helpers.py` 582-646. -/
def fishList (dup : Bool) (sep : Char) (func : FishAction) : FishAction := fun arg st =>
  let comp := completingArg st arg
  if comp.isEmpty then func arg st
  else
    let out := (func arg (some (.upTo sep))).1
    let left := if dup then out else out.filter (fun v => !(splitOn sep comp).contains v.1)
    (left.map (fun v => (listHead sep comp ++ v.1, v.2)), none)

/-- `string match -qr -- $prefix_escaped $comp`, `fish_helpers.py` 651: the text is found anywhere. -/
def foundIn (p : Str) : Str → Bool
  | [] => p.isEmpty
  | c :: cs => p.isPrefixOf (c :: cs) || foundIn p cs

/-- `prefix PREFIX FUNCTION`, `fish_helpers.py` 648-658. If the function prints nothing, `printf "%s\n"` has no
argument and prints an empty line. -/
def fishPrefix (p : Str) (func : FishAction) : FishAction := fun arg st =>
  if foundIn p (completingArg st arg) then
    let out := (func arg (some (.lead p))).1
    (if out.isEmpty then [([], [])] else out.map (fun v => (p ++ v.1, v.2)), none)
  else ([(p, [])], st)

/-- A command made of the helpers. -/
inductive FishTree where
  /-- Values that do not depend on what is typed, such as choices. -/
  | values (vs : List (Str × Str))
  /-- A command that completes the text that is typed, such as `filedir`. -/
  | text (g : Str → List (Str × Str))
  | list (dup : Bool) (sep : Char) (t : FishTree)
  | prefixed (p : Str) (t : FishTree)

/-- Running the command. -/
def FishTree.run : FishTree → FishAction
  | .values vs => fishLeaf (fun _ => vs)
  | .text g => fishLeaf g
  | .list dup sep t => fishList dup sep t.run
  | .prefixed p t => fishPrefix p t.run

end CC
