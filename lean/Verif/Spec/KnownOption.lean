import Verif.Spec.Reached
/-!
# Which option is meant by a word on the command line (specification)
-/

namespace CC

/-- The options of the command are inherited by its subcommands. -/
def Inherits (c : Cmd) : Prop := c.data.inheritOptions = .val true

instance (c : Cmd) : Decidable (Inherits c) := inferInstanceAs (Decidable (_ = _))

/-- The string names the option `o` of the command `c` itself: it is one of its option strings or, if
options may be abbreviated, the beginning (three letters or more) of one of its long or old-style
strings but of no other long or old-style string of an option the command has (or inherits). -/
def NamesOption (parents : List Cmd) (c : Cmd) (s : Str) (o : Opt) : Prop :=
  o ∈ c.data.options ∧ (s ∈ o.strings ∨
    (c.data.abbreviateOptions = .val true ∧ 3 ≤ s.length ∧ ∃ l ∈ o.strings, (IsLong l ∨ IsOld l) ∧ s <+: l ∧
      ∀ x ∈ getOptions parents c (decide (Inherits c)) false, ∀ l' ∈ x.strings, (IsLong l' ∨ IsOld l') → l' ≠ l →
        ¬ s <+: l'))

/-- The command and the ancestors whose options it inherits, nearest first. -/
def inheritedFrom (parents : List Cmd) (c : Cmd) : List (List Cmd × Cmd) :=
  (parents, c) :: ((chainEntries [] parents).filter (fun e => decide (Inherits e.2))).reverse

/-- In the command `c`, the string names `o`: the nearest command that has an option of that name
decides. -/
def KnownOption (parents : List Cmd) (c : Cmd) (s : Str) (o : Opt) : Prop :=
  ∃ l1 e l2, inheritedFrom parents c = l1 ++ e :: l2 ∧ NamesOption e.1 e.2 s o ∧
    ∀ e' ∈ l1, ∀ o', ¬ NamesOption e'.1 e'.2 s o'

/-- Conditions on the options of a tree: option strings are valid and have no `=`, and a string names
at most one option of a command. -/
structure CleanOptions (root : Cmd) : Prop where
  valid : ∀ parents c, At root parents c → ∀ o ∈ c.data.options, ∀ s ∈ o.strings, IsOption s ∧ '=' ∉ s
  single : ∀ parents c, At root parents c → ∀ s o o', NamesOption parents c s o → NamesOption parents c s o' → o = o'

/-- Conditions on the names of commands in a tree: no `:`, and no command that passes its options on has
a name with which the name of a sibling begins. -/
structure CleanNames (root : Cmd) : Prop where
  colon : ∀ parents c, At root parents c → ∀ d ∈ c.children, ':' ∉ d.data.prog
  start : ∀ parents c, At root parents c → ∀ d ∈ c.children, ∀ e ∈ c.children, Inherits d →
    d.data.prog <+: e.data.prog → d = e

/-- The letter of a flag belongs to one command only among a command and the ancestors whose options it
inherits. -/
def FlagsOnce (parents : List Cmd) (c : Cmd) : Prop :=
  ∀ l1 e l2 s o, inheritedFrom parents c = l1 ++ e :: l2 → o ∈ e.2.data.options → o.complete = none → IsShort s →
    s ∈ o.strings → ∀ e' ∈ l2, ∀ o' ∈ e'.2.data.options, s ∉ o'.strings

end CC
