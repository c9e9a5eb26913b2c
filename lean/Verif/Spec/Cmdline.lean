import Verif.Model.Py
/-!
# Command lines as users write them (specification)

A command line is a sequence of items. Each item says what the user wants; `Item.words` is how it is
typed, `Item.options` and `Item.positionals` are what a correct parser has to record.
-/

namespace CC

/-- Whether an option takes an argument. -/
inductive ArgKind where
  | flag | required | optional
  deriving DecidableEq, Repr

/-- One thing on a command line. Names are full option strings such as `--color` or `-old`; `cs` are
the letters of flags in front of the last letter of a cluster such as `-xvf`. -/
inductive Item where
  /-- `--name`: a flag, or an optional argument left out. -/
  | word (name : Str)
  /-- `--name=value`. -/
  | eq (name value : Str)
  /-- `--name value`. -/
  | sep (name value : Str)
  /-- `-xyz`: several flags. -/
  | flags (cs : Str)
  /-- `-xyzVALUE`: flags, and an option with its argument in the same word. -/
  | attached (cs : Str) (c : Char) (value : Str)
  /-- `-xyz VALUE`: flags, and an option with its argument in the next word. -/
  | separate (cs : Str) (c : Char) (value : Str)
  /-- `-xyz`: flags, and an option whose optional argument is left out. -/
  | bare (cs : Str) (c : Char)
  /-- A positional. -/
  | pos (w : Str)

/-- The words typed. -/
def Item.words : Item → List Str
  | .word n => [n]
  | .eq n v => [n ++ '=' :: v]
  | .sep n v => [n, v]
  | .flags cs => ['-' :: cs]
  | .attached cs c v => ['-' :: (cs ++ c :: v)]
  | .separate cs c v => ['-' :: (cs ++ [c]), v]
  | .bare cs c => ['-' :: (cs ++ [c])]
  | .pos w => [w]

/-- Flags in a cluster. -/
def flagOptions (cs : Str) : List (Str × Option Str) := cs.map (fun c => (['-', c], none))

/-- The options given, with the argument if there is one. -/
def Item.options : Item → List (Str × Option Str)
  | .word n => [(n, none)]
  | .eq n v => [(n, some v)]
  | .sep n v => [(n, some v)]
  | .flags cs => flagOptions cs
  | .attached cs c v => flagOptions cs ++ [(['-', c], some v)]
  | .separate cs c v => flagOptions cs ++ [(['-', c], some v)]
  | .bare cs c => flagOptions cs ++ [(['-', c], none)]
  | .pos _ => []

/-- The positionals given. -/
def Item.positionals : Item → List Str
  | .pos w => [w]
  | _ => []

/-- `--name` -/
def LongName (n : Str) : Prop := (∃ c cs, n = '-' :: '-' :: c :: cs) ∧ '=' ∉ n
/-- `-name`, with at least two letters. -/
def OldName (n : Str) : Prop := (∃ c d cs, n = '-' :: c :: d :: cs ∧ c ≠ '-') ∧ '=' ∉ n

/-- A cluster that cannot be mistaken for an option with a name of several letters: neither the whole
word nor the part before its first `=` is an option. -/
def ClusterOk (kind : Str → Option ArgKind) (w : Str) : Prop :=
  (∀ p r, w = p ++ '=' :: r → '=' ∉ p → kind p = none) ∧
  ('=' ∉ w → w.length ≠ 2 → kind w = none)

/-- Flags that may be written in one word. -/
def FlagsOk (kind : Str → Option ArgKind) (cs : Str) : Prop := ∀ c ∈ cs, kind ['-', c] = some .flag

/-- The item uses known options in a way they allow. -/
def Item.Valid (kind : Str → Option ArgKind) : Item → Prop
  | .word n => (LongName n ∨ OldName n) ∧ (kind n = some .flag ∨ kind n = some .optional)
  | .eq n _ => (LongName n ∨ OldName n) ∧ (kind n = some .required ∨ kind n = some .optional)
  | .sep n _ => (LongName n ∨ OldName n) ∧ kind n = some .required
  | .flags cs => cs ≠ [] ∧ cs.head? ≠ some '-' ∧ FlagsOk kind cs ∧ ClusterOk kind ('-' :: cs)
  | .attached cs c v => (cs ++ [c]).head? ≠ some '-' ∧ FlagsOk kind cs ∧ v ≠ [] ∧
      (kind ['-', c] = some .required ∨ kind ['-', c] = some .optional) ∧ ClusterOk kind ('-' :: (cs ++ c :: v))
  | .separate cs c _ => (cs ++ [c]).head? ≠ some '-' ∧ FlagsOk kind cs ∧
      kind ['-', c] = some .required ∧ ClusterOk kind ('-' :: (cs ++ [c]))
  | .bare cs c => (cs ++ [c]).head? ≠ some '-' ∧ FlagsOk kind cs ∧
      kind ['-', c] = some .optional ∧ ClusterOk kind ('-' :: (cs ++ [c]))
  | .pos w => ∀ c cs, w ≠ '-' :: c :: cs

/-- How a command line ends. -/
inductive Ending where
  /-- Nothing more. -/
  | done
  /-- `--` and positionals. -/
  | dashes (ws : List Str)
  /-- `--name`, an option whose argument has not been typed. -/
  | word (name : Str)
  /-- `-xyz`, flags and an option whose argument has not been typed. -/
  | cluster (cs : Str) (c : Char)

/-- The words typed. -/
def Ending.words : Ending → List Str
  | .done => []
  | .dashes ws => ['-', '-'] :: ws
  | .word n => [n]
  | .cluster cs c => ['-' :: (cs ++ [c])]

/-- The ending uses known options in a way they allow. -/
def Ending.Valid (kind : Str → Option ArgKind) : Ending → Prop
  | .done => True
  | .dashes _ => True
  | .word n => (LongName n ∨ OldName n) ∧ kind n = some .required
  | .cluster cs c => (cs ++ [c]).head? ≠ some '-' ∧ FlagsOk kind cs ∧
      kind ['-', c] = some .required ∧ ClusterOk kind ('-' :: (cs ++ [c]))

/-- The options given. -/
def Ending.options : Ending → List (Str × Option Str)
  | .cluster cs _ => flagOptions cs
  | _ => []

/-- The positionals given. -/
def Ending.positionals : Ending → List Str
  | .dashes ws => ws
  | _ => []

/-- The option whose argument is missing. -/
def Ending.incomplete : Ending → Option Str
  | .word n => some n
  | .cluster _ c => some ['-', c]
  | _ => none

end CC

namespace CC

/-- Items on a command line where the options that are known depend on the positionals before. -/
def ItemsValid (kindAt : List Str → Str → Option ArgKind) : List Str → List Item → Prop
  | _, [] => True
  | ps, it :: its => it.Valid (kindAt ps) ∧ ItemsValid kindAt (ps ++ it.positionals) its

end CC
