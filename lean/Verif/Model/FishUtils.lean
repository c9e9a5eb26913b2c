import Verif.Model.Shell
/-!
# Model of `crazy_complete/fish_utils.py`: the builder of `complete` commands and the variable manager
-/

namespace CC

/-- `FishString`, `fish_utils.py` 10-81. -/
structure FStr where
  string : Str
  raw : Bool := false
  deriving DecidableEq, Repr

/-- `FishString.escape`, `fish_utils.py` 60-74. -/
def FStr.escape (s : FStr) : Str := if s.raw then s.string else quote s.string

/-- `FishCompleteCommand.__init__`, `fish_utils.py` 98-106. The set of flags is a list without
duplicates. -/
structure FishCmd where
  command : Option FStr := none
  description : Option FStr := none
  conditions : List FStr := []
  arguments : Option FStr := none
  shorts : List FStr := []
  longs : List FStr := []
  olds : List FStr := []
  flags : List Char := []

/-- `self.flags.add(flag)`. -/
def addChar (c : Char) (l : List Char) : List Char := if l.contains c then l else l ++ [c]

/-- `parse_args`, `fish_utils.py` 145-162. `crash` is InternalError. -/
def FishCmd.parseArgs (c : FishCmd) : List Str → Except Err FishCmd
  | [] => .ok c
  | [a] =>
    if a = S "-f" then .ok { c with flags := addChar 'f' c.flags }
    else if a = S "-F" then .ok { c with flags := addChar 'F' c.flags }
    else .error .crash
  | a :: b :: args =>
    if a = S "-f" then FishCmd.parseArgs { c with flags := addChar 'f' c.flags } (b :: args)
    else if a = S "-F" then FishCmd.parseArgs { c with flags := addChar 'F' c.flags } (b :: args)
    else if a = S "-a" then FishCmd.parseArgs { c with arguments := some ⟨b, false⟩ } args
    else .error .crash

/-- The methods that change the object, `fish_utils.py` 108-162. -/
inductive FishCall where
  | setCommand (s : Str) (raw : Bool)
  | setDescription (s : Option Str) (raw : Bool)
  | addShort (os : List Str) (raw : Bool)
  | addLong (os : List Str) (raw : Bool)
  | addOld (os : List Str) (raw : Bool)
  | addCondition (s : Str) (raw : Bool)
  | insertCondition (pos : Nat) (s : Str) (raw : Bool)
  | setArguments (s : Option Str) (raw : Bool)
  | addFlag (c : Char)
  | parseArgs (args : List Str)

/-- `o.lstrip('-')`. -/
def stripDashes (o : Str) : Str := o.dropWhile (· == '-')

/-- One call, `fish_utils.py` 108-162. Conditions are strings (a condition `None` would make `get`
fail); positions for `insert` are not negative. -/
def FishCmd.call (c : FishCmd) : FishCall → Except Err FishCmd
  | .setCommand s raw => .ok { c with command := some ⟨s, raw⟩ }
  | .setDescription s raw => .ok { c with description := s.map (⟨·, raw⟩) }
  | .addShort os raw => .ok { c with shorts := c.shorts ++ os.map (fun o => ⟨stripDashes o, raw⟩) }
  | .addLong os raw => .ok { c with longs := c.longs ++ os.map (fun o => ⟨stripDashes o, raw⟩) }
  | .addOld os raw => .ok { c with olds := c.olds ++ os.map (fun o => ⟨stripDashes o, raw⟩) }
  | .addCondition s raw => .ok { c with conditions := c.conditions ++ [⟨s, raw⟩] }
  | .insertCondition pos s raw => .ok { c with conditions := c.conditions.take pos ++ ⟨s, raw⟩ :: c.conditions.drop pos }
  | .setArguments s raw => .ok { c with arguments := s.map (⟨·, raw⟩) }
  | .addFlag f => .ok { c with flags := addChar f c.flags }
  | .parseArgs args => c.parseArgs args

/-- A sequence of calls. -/
def FishCmd.calls : FishCmd → List FishCall → Except Err FishCmd
  | c, [] => .ok c
  | c, x :: xs => do FishCmd.calls (← c.call x) xs

/-- Insert a character in a sorted list. -/
def insertChar (a : Char) : List Char → List Char
  | [] => [a]
  | b :: bs => if a.toNat ≤ b.toNat then a :: b :: bs else b :: insertChar a bs

/-- `sorted(self.flags)`. -/
def sortChars (l : List Char) : List Char := l.foldr insertChar []

/-- The flags after lines 189-195 of `get`. -/
def normalFlags (flags : List Char) : List Char :=
  let flags := if flags.contains 'r' && flags.contains 'f' then addChar 'x' flags else flags
  if flags.contains 'x' then flags.filter (fun c => c != 'r' && c != 'f') else flags

/-- A value with a flag in front: `r.extend(['-x', value])`. -/
def flagged (f : Str) (l : List FStr) : List Str := l.flatMap (fun s => [f, s.escape])

/-- `FishCompleteCommand.get`, `fish_utils.py` 164-205: the text and the changed object. -/
def FishCmd.get (c : FishCmd) : Str × FishCmd :=
  let flags := normalFlags c.flags
  (joinWith [' '] (
    [S "complete"] ++
    flagged (S "-c") c.command.toList ++
    flagged (S "-n") c.conditions ++
    flagged (S "-s") c.shorts ++
    flagged (S "-l") c.longs ++
    flagged (S "-o") c.olds ++
    flagged (S "-d") c.description.toList ++
    (if flags.isEmpty then [] else ['-' :: sortChars flags]) ++
    flagged (S "-a") c.arguments.toList),
   { c with flags := flags })

/-! ## Variables -/

/-- `'%03d' % n`. -/
def pad3 (n : Nat) : Str := List.replicate (3 - (natStr n).length) '0' ++ natStr n

/-- `VariableManager`, `fish_utils.py` 208-216. The dictionary is a list of entries in insertion order. -/
structure VarManager where
  name : Str
  vars : List (Str × Str) := []
  counter : Nat := 0

/-- `value_to_variable[value]` if present. -/
def VarManager.find (m : VarManager) (value : Str) : Option Str :=
  (m.vars.find? (fun e => decide (e.1 = value))).map (·.2)

/-- `VariableManager.add`, `fish_utils.py` 218-227. -/
def VarManager.add (m : VarManager) (value : Str) : Str × VarManager :=
  match m.find value with
  | some v => ('$' :: v, m)
  | none =>
    let var := m.name ++ pad3 m.counter
    ('$' :: var, { m with vars := m.vars ++ [(value, var)], counter := m.counter + 1 })

/-- A sequence of `add` calls: the results and the object. -/
def VarManager.adds : VarManager → List Str → List Str × VarManager
  | m, [] => ([], m)
  | m, v :: vs =>
    let r := m.add v
    let rs := VarManager.adds r.2 vs
    (r.1 :: rs.1, rs.2)

/-- `VariableManager.get_lines`, `fish_utils.py` 229-235. -/
def VarManager.lines (m : VarManager) : List Str :=
  m.vars.map (fun e => S "set -l " ++ e.2 ++ [' '] ++ e.1)

end CC
