import Verif.Spec.GlobConv
import Verif.Spec.Posix
import Verif.Spec.CliSpec
/-!
# Styles of Zsh (specification, independent of the model)

After the Zsh manual: `zshmodules`, "The zsh/zutil module" (`zstyle`), and `zshcompsys`, "Completion System
Configuration". A completion asks for the style `sort` in a context `:completion:FUNCTION:COMPLETER:COMMAND:ARGUMENT:TAG`.
`_arguments` writes the argument as `option` and the option string and `-1`, as `argument-` and the number of the operand,
or as `argument-rest` (`Src/Zle/computil.c`). COMMAND is the name of the command as it was typed.
-/

namespace ZshStyles

/-- What `zstyle PATTERN STYLE VALUE...` sets. -/
structure Setting where
  pattern : List Char
  style : List Char
  values : List (List Char)
  deriving DecidableEq, Repr

/-- A line that is such a command. -/
def settingOf (line : List Char) : Option Setting :=
  match Posix.words line with
  | some (z :: p :: s :: vs) => if z = "zstyle".toList then some ⟨p, s, vs⟩ else none
  | _ => none

/-- What a text of such lines sets. -/
def settings (text : List Char) : Option (List Setting) :=
  if text = [] then some [] else (CC.splitOn '\n' text).mapM settingOf

/-- What is being completed: the `n`-th argument of an option, the operand with a number, or one of the further operands
(described by `*`). -/
inductive Place where
  | option (name : List Char) (n : Nat)
  | operand (n : Nat)
  | rest
  deriving DecidableEq

/-- The argument part of a context. -/
def Place.text : Place → List Char
  | .option name n => "option".toList ++ name ++ '-' :: Nat.toDigits 10 n
  | .operand n => "argument-".toList ++ Nat.toDigits 10 n
  | .rest => "argument-rest".toList

/-- A context. -/
structure Context where
  function : List Char
  completer : List Char
  command : List Char
  place : Place
  tag : List Char

/-- A context as text. -/
def Context.text (c : Context) : List Char :=
  ":completion:".toList ++ c.function ++ ':' :: c.completer ++ ':' :: c.command ++ ':' :: c.place.text ++ ':' :: c.tag

/-- The parts of a context have no colon. -/
structure Context.Proper (c : Context) : Prop where
  function : ':' ∉ c.function
  completer : ':' ∉ c.completer
  command : ':' ∉ c.command
  place : ':' ∉ c.place.text
  tag : ':' ∉ c.tag

/-- A setting says something about the sorting in a context. -/
def Setting.Concerns (s : Setting) (c : Context) : Prop :=
  s.style = "sort".toList ∧ ∃ alts, CC.readGlob CC.zshGlob s.pattern = some alts ∧ CC.Glob.AltLang alts c.text

/-- The suggestions stay in the order of the completer: a setting switches the sorting off, and whichever setting Zsh
prefers, it says the same. -/
def Unsorted (ss : List Setting) (c : Context) : Prop :=
  (∃ s ∈ ss, s.Concerns c) ∧ ∀ s ∈ ss, s.Concerns c → s.values = ["false".toList]

/-- Characters that mean something in a pattern or in single quotes, or separate the parts of a context. -/
def special : List Char := "\\'\"[]()|?*#^~<>$`&; \t\n:".toList

open CC (Str Cmd Opt Pos)

/-- A program whose name and whose options that are not to be sorted have no such characters. The name is not one that
`_arguments` uses for a place. -/
structure Writable (root : Cmd) : Prop where
  prog : ∀ c ∈ root.data.prog, c ∉ special
  name : ¬ "option".toList <+: root.data.prog ∧ ¬ "argument-".toList <+: root.data.prog
  options : ∀ parents c, CC.At root parents c → ∀ o ∈ c.data.options, o.nosort = true → ∀ s ∈ o.strings, ∀ ch ∈ s, ch ∉ special

/-- Where `_arguments` sees the values of a positional: one that may be repeated is described by `*`, another one by its
number on the whole line, the operands and subcommand words of the parents included (see C18, C53). -/
def placeOf (parents : List Cmd) (p : Pos) : Place := if p.repeatable then .rest else .operand (CC.positionalNum parents p.number)

/-- The option is one of the command line, at any command. -/
def HasOption (root : Cmd) (o : Opt) : Prop := ∃ parents c, CC.At root parents c ∧ o ∈ c.data.options

/-- The positional is one of the command line, at any command. -/
def HasPositional (root : Cmd) (p : Pos) : Prop := ∃ parents c, CC.At root parents c ∧ p ∈ c.data.positionals

end ZshStyles
