import Verif.Spec.BashSpec
import Verif.Model.BashFunction
/-!
# Which completer belongs to the word at the cursor (specification)
-/

namespace CC

/-- The condition of an option holds, or it has none. -/
def WhenMet (E : BEnv) (c : Cmd) (o : Opt) : Prop := ∀ w, o.when_ = some w → E.holds c w = true

/-- Every option with an argument has a completer. -/
def HasCompleters (c : Cmd) : Prop := ∀ o ∈ c.data.options, o.complete ≠ some []

/-- Some option of the command must have its argument, or some option with an argument has a condition. -/
def NotAllOptional (c : Cmd) : Prop :=
  (∃ o ∈ c.data.options, o.kind = .required) ∨ ∃ o ∈ c.data.options, o.kind ≠ .flag ∧ o.when_.isSome = true

/-- The letters are flags that the command lists: of its own or, if it passes its options on, of its parents. -/
def ListedFlags (parents : List Cmd) (c : Cmd) (cs : Str) : Prop :=
  ∀ x ∈ cs, ∃ o ∈ getOptions parents c (decide (Inherits c)) false, o.complete = none ∧ ['-', x] ∈ o.strings

/-- The word before the cursor does not ask for an argument of an option of the command: as a whole it is no
option that must have an argument; and if its last letter is one, then it cannot be taken for a cluster, which
means that some letter before is not a flag, and the command has no old-style options that must have an argument. -/
def Quiet (parents : List Cmd) (c : Cmd) (prev : Str) : Prop :=
  (∀ o, NamesOption parents c prev o → o.kind ≠ .required) ∧
  ∀ u x o, prev = '-' :: (u ++ [x]) → (u ++ [x]).head? ≠ some '-' → NamesOption parents c ['-', x] o → o.kind = .required →
    (∀ o' ∈ c.data.options, o'.kind = .required → ∀ s ∈ o'.strings, ¬ IsOld s) ∧ ¬ ListedFlags parents c u

/-- An item whose last word cannot be taken for an option that asks for an argument: a long option; a value that
does not begin with `-`; flags; a value attached to a letter that is no flag, if no old-style option must have an argument. -/
def Item.Plain (parents : List Cmd) (c : Cmd) : Item → Prop
  | .word n => IsLong n
  | .eq n _ => IsLong n
  | .sep _ v => ∀ r, v ≠ '-' :: r
  | .separate _ _ v => ∀ r, v ≠ '-' :: r
  | .attached _ x _ => ¬ ListedFlags parents c [x] ∧ ∀ o ∈ c.data.options, o.kind = .required → ∀ s ∈ o.strings, ¬ IsOld s
  | _ => True

/-- The place (from 0) of a positional among the words that are positionals: its numbers count from 1, after the
words of the parents. -/
def PosPlace (parents : List Cmd) (p : Pos) : Nat := (parents.map width).sum + (p.number - 1)

/-- The word at place `n` belongs to the positional. -/
def PosHere (parents : List Cmd) (p : Pos) (n : Nat) : Prop :=
  if p.repeatable = true then PosPlace parents p ≤ n else PosPlace parents p = n

instance (parents : List Cmd) (p : Pos) (n : Nat) : Decidable (PosHere parents p n) := by
  unfold PosHere; infer_instance

/-- The condition of a positional holds, or it has none. -/
def PosMet (E : BEnv) (c : Cmd) (p : Pos) : Prop := ∀ w, p.when_ = some w → E.holds c w = true

/-- The arguments of a command that is itself a positional. -/
def IsCommandArg (p : Pos) : Prop := p.complete.head? = some (.str (S "command_arg"))

/-- Nothing of the command is at place `n`: no positional, and not its subcommands. -/
def Elsewhere (parents : List Cmd) (c : Cmd) (n : Nat) : Prop :=
  (∀ p ∈ c.data.positionals, ¬ PosHere parents p n) ∧ ¬ SubPlace parents c n

/-- With `n` positionals, the arguments of a command that is a positional have not begun. -/
def BeforeCommandArg (parents : List Cmd) (c : Cmd) (n : Nat) : Prop :=
  ∀ p ∈ c.data.positionals, IsCommandArg p → n ≤ PosPlace parents p

/-- The positional has a completer that finds something: not `none`, and not a plain `integer` or `float`. -/
def FindsSomething (p : Pos) : Prop :=
  ∀ s, p.complete.head? = some (.str s) → s ≠ S "none" ∧ ((s = S "integer" ∨ s = S "float") → 1 < p.complete.length)

/-- There is something to complete for the command: subcommands, a positional, or an option that is not just
`--help` or `--version`. -/
def WorthCompleting (c : Cmd) : Prop :=
  c.sub.isSome = true ∨ (∃ p ∈ c.data.positionals, FindsSomething p) ∨
    ∃ o ∈ c.data.options, S "--help" ∉ o.strings ∧ S "--version" ∉ o.strings

/-- The script's parser: version 1 (only if no flag letter is used twice) or version 2. -/
def IsParser (root : Cmd) (parse : List Str → Str → List Str → BState) : Prop :=
  ∃ blocks, bashBlocks root = .ok blocks ∧
    (((∀ parents c, At root parents c → FlagsOnce parents c) ∧ parse = bashParseV1 blocks (switchCases root)) ∨
      parse = bashParseV2 (bashParts root) blocks (switchCases root))

/-- The words before the cursor are these items and this ending, which use options as they allow; they belong to
the command `c`. -/
structure Typed (root : Cmd) (optAt : List Str → Str → Option Opt) (its : List Item) (e : Ending) (parents : List Cmd) (c : Cmd) : Prop where
  reached : Reached root (its.flatMap Item.positionals) parents c
  items : ItemsValid (fun ps s => (optAt ps s).map Opt.kind) [] its
  ending : e.Valid (fun s => (optAt (its.flatMap Item.positionals) s).map Opt.kind)

end CC
