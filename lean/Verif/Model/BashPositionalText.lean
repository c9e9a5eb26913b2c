import Verif.Model.BashOptionText
import Verif.Model.BashFunction
/-!
# Model of the text of `crazy_complete/bash_positionals_completion.py`

`Model/BashFunction.lean` has what the code does; here it is modelled as the text that is written into the script. `code` stands for
`BashCompletionGenerator.complete_option` (`bash.py` 44-51) and `subCode` for the code of `completer.choices` on the names of the
subcommands; both are not interpreted here.
-/

namespace CC

/-- `_make_block`, `bash_positionals_completion.py` 11-15. -/
def blockText (code : Str) : Str :=
  if code.isEmpty then S "{\n  return 0;\n}" else S "{\n" ++ indent code 2 ++ S "\n  return 0;\n}"

/-- `_get_positional_condition`, lines 33-37. -/
def positionText (parents : List Cmd) (p : Pos) : Str :=
  S "${#POSITIONALS[@]} " ++ (if p.repeatable then S ">=" else S "==") ++ [' '] ++ intStr (positionalNum parents p.number)

/-- `positional.when` if it is true in the sense of Python, line 48. -/
def Pos.whenSet (p : Pos) : Option Str := p.when_.filter (fun w => !w.isEmpty)

/-- The loop body of `_generate_positionals_with_when`, lines 46-56. -/
def positionalWhenBlock (isRegex : Str → Bool) (pre : Str) (parents : List Cmd) (c : Cmd) (code : Pos → Str) (p : Pos) : Except Err Str := do
  let r := S "(( " ++ positionText parents p ++ S " )) && "
  let r ← match p.whenSet with
    | none => .ok r
    | some w => do
      let ts ← parseWhen isRegex w
      let t ← bashWhenText pre (bashResolve c.data.options) ts
      .ok (r ++ t ++ S " && ")
  .ok (r ++ blockText (code p))

/-- The loop body of `_generate_positionals_without_when`, lines 69-73. -/
def positionalGroupBlock (parents : List Cmd) (g : Str × List Pos) : Str :=
  S "(( " ++ joinWith (S " || ") (g.2.map (positionText parents)) ++ S " )) && " ++ blockText g.1

/-- `_generate_positionals_with_when` and `_generate_positionals_without_when`, lines 40-75, as the list of blocks that are joined, and
the choice between them, lines 83-88. -/
def positionalBlocks (isRegex : Str → Bool) (pre : Str) (parents : List Cmd) (c : Cmd) (code : Pos → Str) : Except Err (List Str) :=
  let ps := c.data.positionals.filter (fun p => !p.isCommandArg)
  if c.data.positionals.any (fun p => p.whenSet.isSome) then mapE (positionalWhenBlock isRegex pre parents c code) ps
  else .ok ((groupBy code ps).map (positionalGroupBlock parents))

/-- `_generate_subcommand_positional`, lines 25-30. -/
def subcommandBlock (parents : List Cmd) (subCode : Str) (n : Nat) : Str :=
  S "(( ${#POSITIONALS[@]} == " ++ intStr (positionalNum parents n) ++ S " )) && " ++ blockText subCode

/-- Lines 90-91 of `generate`. -/
def subcommandBlocks (parents : List Cmd) (subCode : Str) : Option Nat → List Str
  | some n => [subcommandBlock parents subCode n]
  | none => []

/-- `generate`, lines 78-93. -/
def positionalsText (isRegex : Str → Bool) (pre : Str) (parents : List Cmd) (c : Cmd) (code : Pos → Str) (subCode : Str) : Except Err Str := do
  let bs ← positionalBlocks isRegex pre parents c code
  let parts := joinWith (S "\n\n") bs :: subcommandBlocks parents subCode c.sub
  .ok (joinWith (S "\n\n") (parts.filter (fun t => !t.isEmpty)))

end CC
