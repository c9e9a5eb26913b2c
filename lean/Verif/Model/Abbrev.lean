import Verif.Model.Py
/-!
# Model of the abbreviation generators and command names in `crazy_complete/utils.py`
-/

namespace CC

/-- `range(n, min - 1, -1)`, `utils.py` 59: the lengths tried, longest first. -/
def downFrom (min : Nat) : Nat → List Nat
  | 0 => if min = 0 then [0] else []
  | n + 1 => if min ≤ n + 1 then (n + 1) :: downFrom min n else []

/-- The test of `utils.py` 62-68 for one length. -/
def abbreviable (words : List Str) (word : Str) (length : Nat) : Bool :=
  let abbr := word.take length
  !((words.filter (fun w => w != word)).any (fun o => startsWith o abbr)) || abbr == word

/-- The abbreviations of one word, `utils.py` 55-70. -/
def abbreviationsOf (min : Nat) (words : List Str) (word : Str) : List Str :=
  ((downFrom min word.length).filter (abbreviable words word)).map (fun n => word.take n)

/-- `self.min_lengths[word]`, `utils.py` 57 and 70: the last length accepted. -/
def minLengthOf (min : Nat) (words : List Str) (word : Str) : Nat :=
  (((downFrom min word.length).filter (abbreviable words word)).getLast?).getD word.length

/-- `GeneralAbbreviationGenerator.get_abbreviations`, `utils.py` 72-84: KeyError for unknown words.
Simplification: the minimum length is a natural number (the subclasses use 3 and 1). -/
def getAbbreviations (min : Nat) (words : List Str) (word : Str) : Except Err (List Str) :=
  if word ∈ words then .ok (abbreviationsOf min words word) else .error .crash

/-- `GeneralAbbreviationGenerator.get_many_abbreviations`, `utils.py` 86-104. -/
def getManyAbbreviations (min : Nat) (words : List Str) : List Str → Except Err (List Str)
  | [] => .ok []
  | w :: ws => do
    let a ← getAbbreviations min words w
    let r ← getManyAbbreviations min words ws
    .ok (a ++ r)

/-- `OptionAbbreviationGenerator.__init__`, `utils.py` 110-123: the word check; the generator then
uses minimum length 3. -/
def optionWordOk (w : Str) : Bool :=
  if startsWith w (S "--") && decide (w.length > 3) then true
  else if startsWith w (S "-") && decide (w.length > 2) then true
  else false

/-- `OptionAbbreviationGenerator(words).get_abbreviations(word)`, `utils.py` 107-123. -/
def optionAbbreviations (words : List Str) (word : Str) : Except Err (List Str) :=
  if words.all optionWordOk then getAbbreviations 3 words word else .error .valueError

/-- What `get_all_command_variations` reads of a subcommand: its name, its aliases and its
`abbreviate_commands` attribute. -/
structure Sub where
  prog : Str
  aliases : List Str
  abbreviate : Bool

/-- `get_all_command_variations`, `utils.py` 173-190, for a command that has a parent whose
subcommands are `siblings`. -/
def commandVariations (siblings : List Sub) (c : Sub) : Except Err (List Str) :=
  if c.abbreviate then do
    let a ← getAbbreviations 1 (siblings.map (·.prog)) c.prog
    .ok (a ++ c.aliases)
  else .ok ([c.prog] ++ c.aliases)

/-- `get_all_command_variations` for the root, `utils.py` 179-180. -/
def rootVariations (c : Sub) : List Str := [c.prog] ++ c.aliases

end CC
