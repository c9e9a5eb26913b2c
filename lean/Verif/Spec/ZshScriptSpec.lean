import Verif.Spec.ZshArgs
import Verif.Spec.FishScriptSpec
/-!
# What `_arguments` does with its specs (specification, independent of the model)

After the zshcompsys manual and `Src/Zle/computil.c` (`parse_cadef`, `ca_parse_line`, `ca_inactive`, `ca_get_arg`).
-/

namespace ZshArgs

/-- What a word passed to `_arguments` describes: an option or a normal argument. -/
inductive Element where
  | option (s : Spec)
  | normal (n : Normal)
  deriving DecidableEq

/-- Read a word passed to `_arguments`. -/
def readElement (w : List Char) : Option Element :=
  match readNormal w with
  | some n => some (.normal n)
  | none => match read w with
    | some s => if s.name.head? = some '-' then some (.option s) else none
    | none => none

/-- The texts in an array are read as these elements. -/
inductive ReadsAs : List (List Char) → List Element → Prop
  | nil : ReadsAs [] []
  | cons {text words es texts rest} : Expands text words → words.map readElement = es.map some → ReadsAs texts rest →
      ReadsAs (text :: texts) (es ++ rest)

/-- The option given on the command line rules out `x`: by its list or, if it may not be repeated, by itself. -/
def Spec.rulesOut (s : Spec) (x : List Char) : Prop := x ∈ s.excludes ∨ (s.repeated = false ∧ x = s.name)

/-- `_arguments` offers the option string `name` if the options `given` are on the command line: it has a spec that is not
hidden, and no option given rules it out, nor (with `-`) all options. -/
def Offers (els : List Element) (given : List (List Char)) (name : List Char) : Prop :=
  (∃ s, .option s ∈ els ∧ s.name = name ∧ s.hidden = false) ∧
  ∀ s, .option s ∈ els → s.name ∈ given → ¬ s.rulesOut name ∧ ¬ s.rulesOut ['-']

/-- The decimal notation of a number. -/
def decimal (n : Nat) : List Char := Nat.toDigits 10 n

/-- `_arguments` completes the `n`th normal argument (from 1) with the element `a`: one with that number or, if there is
none, the one for the rest, unless an option given rules the rest out (with `*`). -/
def Completes (els : List Element) (given : List (List Char)) (n : Nat) (a : Normal) : Prop :=
  .normal a ∈ els ∧
  (a.number = some (decimal n) ∨
    (a.number = none ∧ (∀ b, .normal b ∈ els → b.number ≠ some (decimal n)) ∧
      ∀ s, .option s ∈ els → s.name ∈ given → ¬ s.rulesOut ['*']))

end ZshArgs

namespace CC

open ZshArgs WhenSpec ShellGrammar

/-- `o` is an option of `x`, which is one of the commands `cmds` (outermost first), and no later command of them has an
option with the same strings. -/
def Nearest (cmds : List Cmd) (x : Cmd) (o : Opt) : Prop :=
  ∃ l1 l2, cmds = l1 ++ x :: l2 ∧ o ∈ x.data.options ∧ ∀ y ∈ l2, ∀ q ∈ y.data.options, q.key ≠ o.key

/-- `kind` tells the kind of every option string that a command or one of its parents has (whether options are
inherited or not); an option of a parent counts unless a nearer command has one with the same strings. -/
def TellsKinds (root : Cmd) (kind : List Cmd → Cmd → Str → Option ArgKind) : Prop :=
  ∀ parents c, At root parents c → ∀ s k, kind parents c s = some k ↔
    ∃ x o, Nearest (parents ++ [c]) x o ∧ s ∈ o.strings ∧ o.kind = k

/-- The words of a command line are these items and this ending, and belong to the command `c`. What stands before the
word of a subcommand is valid for the command before it, and all is valid for `c`. -/
structure TypedFor (root : Cmd) (kind : List Cmd → Cmd → Str → Option ArgKind) (its : List Item) (e : Ending)
    (parents : List Cmd) (c : Cmd) : Prop where
  reached : Reached root (lineOf its e).positionals parents c
  before : ∀ qs x d rest, parents ++ [c] = qs ++ x :: d :: rest →
    ∃ front back n, its = front ++ back ∧ (∀ it ∈ front, it.Valid (kind qs x)) ∧
      SubPlace qs x n ∧ n < (front.flatMap Item.positionals).length
  items : ∀ it ∈ its, it.Valid (kind parents c)
  ending : e.Valid (kind parents c)

/-- The commands whose options the Zsh function of `c` passes to `_arguments`: all parents, if `c` itself has
`inherit_options`. -/
def zshScope (parents : List Cmd) (c : Cmd) : List Cmd :=
  if c.data.inheritOptions = .val false then [c] else parents ++ [c]

/-- A condition on options, as opposed to positionals. -/
def OnOptions : Cond → Prop
  | .optionIs .. => True
  | .optionMatch .. => True
  | .hasOption .. => True
  | _ => False

/-- A condition at an option or a positional that completion for `c` looks at. -/
def ConditionHere (parents : List Cmd) (c : Cmd) (w : Str) : Prop :=
  (∃ x o, Nearest (zshScope parents c) x o ∧ o.when_ = some w) ∨
  ∃ x ∈ parents ++ [c], ∃ p ∈ x.data.positionals, p.when_ = some w

/-- The function of `c` parses the command line: it has subcommands, a captured option, or a condition on options. -/
def ParsesLine (isRegex : Str → Bool) (parents : List Cmd) (c : Cmd) : Prop :=
  c.sub.isSome = true ∨ (∃ o ∈ c.data.options, ∃ v, o.capture = some v ∧ v ≠ []) ∨
  ∃ w ts, ConditionHere parents c w ∧ parseWhen isRegex w = .ok ts ∧ ∃ k, .cmd k ∈ ts ∧ OnOptions k

end CC
