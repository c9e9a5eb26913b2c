import Verif.Model.Cli
/-!
# Values that JSON text in a YAML file can hold

`json.dumps` writes JSON. A YAML reader understands most of it, but not all of it as JSON is meant.
-/

namespace CC

/-- Only characters below 65536: JSON writes the others as a pair of surrogates, which YAML does not
put together again. -/
def BasicText (s : Str) : Prop := ∀ c ∈ s, c.toNat < 65536

/-- The text of a float has a point. Without it YAML does not see a float. -/
def PointFloat (t : Str) : Prop :=
  ∃ sign whole frac exp : Str, t = sign ++ (whole ++ '.' :: (frac ++ exp)) ∧ (sign = [] ∨ sign = ['-']) ∧
    whole ≠ [] ∧ (∀ c ∈ whole, c.isDigit = true) ∧ (∀ c ∈ frac, c.isDigit = true) ∧
    (exp = [] ∨ ∃ (s : Char) (ds : Str), exp = 'e' :: s :: ds ∧ (s = '+' ∨ s = '-') ∧ ds ≠ [] ∧
      ∀ c ∈ ds, c.isDigit = true)

/-- How many characters JSON needs for a character. -/
def jsonWidth (c : Char) : Nat :=
  if c = '"' ∨ c = '\\' ∨ c = '\n' ∨ c = '\r' ∨ c = '\t' ∨ c.toNat = 12 ∨ c.toNat = 8 then 2
  else if 32 ≤ c.toNat ∧ c.toNat ≤ 126 then 1
  else 6

/-- A key is a string that takes not more than 1024 characters with its quotes. -/
def PortableKey : Key → Prop
  | .str s => BasicText s ∧ (s.map jsonWidth).sum + 2 ≤ 1024
  | _ => False

mutual
/-- A value that YAML reads back from its JSON text. -/
def Portable : Val → Prop
  | .none => True
  | .bool _ => True
  | .int _ => True
  | .float t => PointFloat t
  | .str s => BasicText s
  | .list l => PortableList l
  | .dict d => (d.map Prod.fst).Nodup ∧ PortableDict d
/-- The same for all items of a list. -/
def PortableList : List Val → Prop
  | [] => True
  | v :: vs => Portable v ∧ PortableList vs
/-- The same for all entries of a dictionary. -/
def PortableDict : List (Key × Val) → Prop
  | [] => True
  | (k, v) :: es => PortableKey k ∧ Portable v ∧ PortableDict es
end

/-- An optional text. -/
def BasicText? (s : Option Str) : Prop := ∀ t, s = some t → BasicText t

/-- An option whose texts and completer can be written. -/
structure PortableOption (o : Opt) : Prop where
  strings : ∀ s ∈ o.strings, BasicText s
  metavar : BasicText? o.metavar
  help : BasicText? o.help
  groups : ∀ g, o.groups = some g → ∀ s ∈ g, BasicText s
  complete : ∀ l, o.complete = some l → PortableList l
  when_ : BasicText? o.when_
  capture : BasicText? o.capture

/-- A positional whose texts and completer can be written. -/
structure PortablePositional (p : Pos) : Prop where
  metavar : BasicText? p.metavar
  help : BasicText? p.help
  complete : PortableList p.complete
  when_ : BasicText? p.when_
  capture : BasicText? p.capture

/-- A command whose texts and completers can be written. -/
structure PortableCommand (d : CmdData) : Prop where
  prog : BasicText d.prog
  help : BasicText? d.help
  aliases : ∀ s ∈ d.aliases, BasicText s
  wraps : BasicText? d.wraps
  options : ∀ o ∈ d.options, PortableOption o
  positionals : ∀ p ∈ d.positionals, PortablePositional p

end CC
