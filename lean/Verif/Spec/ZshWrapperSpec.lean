import Verif.Spec.GlobConv
import Verif.Model.ZshWrapper
import Verif.Model.ZshQuery
/-!
# Specification: handing a command line to the wrapped command

`Holds` says when a test of Zsh succeeds. `Own` says which words of a line are options of the program itself and how
many words such an option takes up; `Strip` what is left of a line without them.
-/

namespace CC
namespace ZshWrap

/-! ## Tests of Zsh -/

/-- What one character of a regular expression stands for. -/
inductive Atom where
  | chr (c : Char)
  | any
  | set (negated : Bool) (cs : Str)
  deriving DecidableEq

/-- The atom matches the character. -/
def Atom.Has : Atom → Char → Prop
  | .chr d, c => c = d
  | .any, _ => True
  | .set neg cs, c => if neg then c ∉ cs else c ∈ cs

/-- Where the reader of an expression is. -/
inductive EMode where
  | plain | opened
  | inside (neg : Bool) (cs : Str)

/-- The last atom gets a quantifier. -/
def quantified (q : Char) (is : List (Atom × Option Char)) : Option (List (Atom × Option Char)) :=
  match is.getLast? with
  | some (a, none) => some (is.dropLast ++ [(a, some q)])
  | _ => none

/-- An extended regular expression (POSIX) behind `^`, up to the `$` at its end. Groups, alternatives, ranges and
escapes are not described. -/
def readItems : EMode → List (Atom × Option Char) → Str → Option (List (Atom × Option Char))
  | _, _, [] => none
  | .plain, is, c :: r =>
    if c = '$' ∧ r = [] then some is
    else if c = '[' then readItems .opened is r
    else if c = '*' ∨ c = '+' then match quantified c is with
      | none => none
      | some is' => readItems .plain is' r
    else if c = '.' then readItems .plain (is ++ [(.any, none)]) r
    else if c ∈ S "^$(){}|?\\]" then none
    else readItems .plain (is ++ [(.chr c, none)]) r
  | .opened, is, c :: r =>
    if c = '^' then readItems (.inside true []) is r
    else if c ∈ S "[]-\\" then none
    else readItems (.inside false [c]) is r
  | .inside neg cs, is, c :: r =>
    if c = ']' ∧ cs ≠ [] then readItems .plain (is ++ [(.set neg cs, none)]) r
    else if c ∈ S "[]-\\" then none
    else readItems (.inside neg (cs ++ [c])) is r

/-- An expression that is anchored at both ends and written in single quotes. -/
def readEre (t : Str) : Option (List (Atom × Option Char)) :=
  if '\'' ∈ t then none
  else match t with
    | '^' :: r => readItems .plain [] r
    | _ => none

/-- The words matched by a sequence of atoms, each once, any number of times (`*`) or at least once (`+`). -/
def ItemsLang : List (Atom × Option Char) → Str → Prop
  | [], w => w = []
  | (a, none) :: is, w => ∃ c r, w = c :: r ∧ a.Has c ∧ ItemsLang is r
  | (a, some q) :: is, w => ∃ p r, w = p ++ r ∧ (q = '+' → p ≠ []) ∧ (∀ c ∈ p, a.Has c) ∧ ItemsLang is r

/-- When a test succeeds: for `==` the pattern matches the whole word, for `=~` the anchored expression does. -/
def Holds : WrapTest → Str → Prop
  | .glob p, w => ∃ alts, readGlob zshGlob p = some alts ∧ Glob.AltLang alts w
  | .regex p, w => ∃ is, readEre p = some is ∧ ItemsLang is w

/-! ## The program's own options on a line -/

/-- The word is a long option, or an old-style option, of the program. -/
def Named (os : List Opt) (w : Str) (o : Opt) : Prop := o ∈ os ∧ w ∈ o.strings ∧ 2 < w.length

/-- The character is a short option of the program. -/
def Letter (os : List Opt) (c : Char) (o : Opt) : Prop := o ∈ os ∧ ['-', c] ∈ o.strings

/-- The characters are short options that take no argument. -/
def Flags (os : List Opt) (cs : Str) : Prop := ∀ c ∈ cs, ∃ o, Letter os c o ∧ o.kind = .flag

/-- The word as a long or old-style option of the program: with the number of words taken up. -/
inductive OwnNamed (os : List Opt) : Str → Nat → Prop
  | alone {w o} : Named os w o → o.kind ≠ .required → OwnNamed os w 1
  | withNext {w o} : Named os w o → o.kind = .required → OwnNamed os w 2
  | withValue {n o} (v : Str) : Named os n o → o.kind ≠ .flag → OwnNamed os (n ++ '=' :: v) 1

/-- The word as one or several short options of the program behind one dash. -/
inductive OwnCluster (os : List Opt) : Str → Nat → Prop
  | flags {cs} : cs ≠ [] → Flags os cs → OwnCluster os ('-' :: cs) 1
  | withNext {cs c o} : Flags os cs → Letter os c o → o.kind = .required → OwnCluster os ('-' :: (cs ++ [c])) 2
  | withValue {cs c o v} : Flags os cs → Letter os c o → o.kind = .required → v ≠ [] → OwnCluster os ('-' :: (cs ++ c :: v)) 1
  | optional {cs c o} (v : Str) : Flags os cs → Letter os c o → o.kind = .optional → OwnCluster os ('-' :: (cs ++ c :: v)) 1

/-- A word that is an option (or several) of the program, and the number of words taken up, itself included. What can
be read as a whole option is not read as several short ones. -/
def Own (os : List Opt) (w : Str) (n : Nat) : Prop := OwnNamed os w n ∨ ((∀ m, ¬ OwnNamed os w m) ∧ OwnCluster os w n)

/-- What is left of a line without the program's own options and their arguments. The flag tells that the line ends
behind an option whose argument is yet to come. -/
inductive Strip (os : List Opt) : List Str → List Str → Bool → Prop
  | nil : Strip os [] [] false
  | keep {w r k p} : (∀ n, ¬ Own os w n) → Strip os r k p → Strip os (w :: r) (w :: k) p
  | one {w r k p} : Own os w 1 → Strip os r k p → Strip os (w :: r) k p
  | two {w a r k p} : Own os w 2 → Strip os r k p → Strip os (w :: a :: r) k p
  | awaits {w} : Own os w 2 → Strip os [w] [] true

/-- Characters that are not written in the name of an option: they mean something in a pattern of Zsh, or in the
template of the function (`%`), or separate the value. -/
def special : Str := S "\\'\"[()|?*#^~<>$`&; \t\n=%"

/-- Names that can be written into the patterns, and are not used for different kinds of options. -/
structure Writable (os : List Opt) : Prop where
  shape : ∀ o ∈ os, ∀ s ∈ o.strings,
    (∃ c, s = ['-', c] ∧ c ∉ S "[]-\\^'%") ∨
    (∃ n, s = '-' :: n ∧ 1 < n.length ∧ n.head? ≠ some '-' ∧ ∀ c ∈ n, c ∉ special) ∨
    (∃ n, s = '-' :: '-' :: n ∧ n ≠ [] ∧ n.head? ≠ some '-' ∧ ∀ c ∈ n, c ∉ special)
  agree : ∀ o ∈ os, ∀ o' ∈ os, ∀ s ∈ o.strings, s ∈ o'.strings → o.kind = o'.kind

end ZshWrap
end CC
