import Verif.Props.BashPatterns
import Verif.Spec.BashText
import Verif.Model.BashFile
/-!
# Command lines for which the text of the Bash parser is described (specification)

Option strings and names of commands consist of characters without a meaning of their own in Bash, and the variables of
options are names of variables that the parser does not use itself.
-/

namespace CC

/-- The names that the parser uses itself. -/
def parserNames : List Str :=
  ["cmd".toList, "argi".toList, "arg".toList, "i".toList, "char".toList, "trailing_chars".toList, "POSITIONALS".toList,
    "END_OF_OPTIONS".toList, "words_dequoted".toList, "cword".toList]

/-- An option with plain strings: long strings begin with `-`, short strings are `-` and a letter. -/
structure PlainBashOption (o : BOpt) : Prop where
  var : BashText.isName o.var = true
  own : o.var ∉ parserNames
  longs : ∀ l ∈ o.longs, l.head? = some '-' ∧ ∀ c ∈ l, PlainChar c
  shorts : ∀ s ∈ o.shorts, ∃ c, s = ['-', c] ∧ PlainChar c

/-- A command with plain strings. -/
structure PlainBashBlock (b : Block) : Prop where
  path : b.path ≠ [] ∧ b.path ≠ "esac".toList ∧ ∀ c ∈ b.path, PlainChar c
  opts : ∀ o ∈ b.opts, PlainBashOption o

/-- A case of the switch with plain names. -/
structure PlainBashSwitch (c : SwitchCase) : Prop where
  path : ∀ x ∈ c.path, PlainChar x
  names : ∀ e ∈ c.names, e.1 ≠ [] ∧ (∀ s ∈ e.1, s ≠ [] ∧ ∀ x ∈ s, PlainChar x) ∧ NoNumericClash (fun w => w ∈ e.1) ∧
    (∃ s ∈ e.1, s ≠ "esac".toList) ∧ ∀ x ∈ e.2, PlainChar x

/-- Run a text as the body of a function without arguments, in an environment. The loops may run `fuel` times. -/
noncomputable def runText (fuel : Nat) (t : Str) (e : BashText.Env) : Option BashText.Env :=
  (BashText.read t).bind (fun code => BashText.closure (BashText.exec fuel [] code) [] e)

/-- The values that a log has for a variable. -/
def recorded (v : Str) (log : List (Str × Str)) : List Str := (log.filter (fun e => decide (e.1 = v))).map (·.2)

/-- Values added to an array. A variable to which nothing is added stays as it is. -/
def extended (v : BashText.Val) (vs : List Str) : BashText.Val := if vs = [] then v else .array (v.elements ++ vs)

/-- What the parser has to leave in the variables: the positionals, whether there was a `--`, the values of each option
behind those its variable had before. All other variables are as they were. -/
structure ParsedInto (log : List (Str × Str)) (positionals : List Str) (dashes : Bool) (e e' : BashText.Env) : Prop where
  posArray : e'.vars (S "POSITIONALS") = .array positionals
  endMark : e'.vars (S "END_OF_OPTIONS") = .str (if dashes then ['1'] else ['0'])
  options : ∀ v, v ∉ parserNames → e'.vars v = extended (e.vars v) (recorded v log)
  others : ∀ v ∈ parserNames, v ≠ S "POSITIONALS" → v ≠ S "END_OF_OPTIONS" → e'.vars v = e.vars v
  args : e'.args = e.args
  saved : e'.saved = e.saved

/-- The environment in which the parser is called: no variable is a reference, `words_dequoted` has the name of the program,
the words before the cursor, the word at the cursor and those behind it, `cword` is the place of the cursor. -/
structure CallEnv (e : BashText.Env) (words : List Str) (cur : Str) (post : List Str) : Prop where
  refs : ∀ x y, e.vars x ≠ .ref y
  array : ∃ prog, e.vars (S "words_dequoted") = .array (prog :: words ++ cur :: post)
  cword : e.vars (S "cword") = .str (BashText.decimal (words.length + 1))

/-! ## Version 2 -/

/-- The names that the parser of version 2 uses itself. -/
def parserNames2 : List Str := parserNames ++ ["VAR".toList, "ARGS".toList]

/-- An option for the parser of version 2: it has a string, its variable is not one of those that are used to find options
and to append values, and its strings have no numbers that are read as one range (`C11_exact_partial`). -/
structure PlainBashOption2 (o : BOpt) : Prop where
  plain : PlainBashOption o
  var : o.var ∉ ["VAR".toList, "ARGS".toList, "arr".toList]
  ne : o.shorts ++ o.longs ≠ []
  clash : NoNumericClash (fun w => w ∈ o.shorts ++ o.longs)

/-- What the parser of version 2 has to leave in the variables. Without the part for positionals, `POSITIONALS` is left
as it is. -/
structure ParsedInto2 (keeps : Bool) (log : List (Str × Str)) (positionals : List Str) (dashes : Bool) (e e' : BashText.Env) : Prop where
  posArray : e'.vars (S "POSITIONALS") = if keeps then .array positionals else e.vars (S "POSITIONALS")
  endMark : e'.vars (S "END_OF_OPTIONS") = .str (if dashes then ['1'] else ['0'])
  options : ∀ v, v ∉ parserNames2 → e'.vars v = extended (e.vars v) (recorded v log)
  others : ∀ v ∈ parserNames2, v ≠ S "POSITIONALS" → v ≠ S "END_OF_OPTIONS" → e'.vars v = e.vars v
  args : e'.args = e.args
  saved : e'.saved = e.saved

end CC
