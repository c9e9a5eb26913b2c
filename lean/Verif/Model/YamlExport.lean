import Verif.Model.Dictionary
/-!
# Model of the export in `crazy_complete/yaml_source.py`, lines 22-138

The values are written with Python's `json.dumps`, whose output (default arguments: separators `, `
and `: `, everything but printable ASCII escaped) is modelled here too. Simplification: a float is
kept as its text (`Model/Value.lean`), which is taken to be what `json.dumps` writes.
-/

namespace CC

/-- A hexadecimal digit of `'{:04x}'.format(n)`. -/
def hexDigit (n : Nat) : Char := Nat.digitChar (n % 16)

/-- `'\\u{:04x}'.format(n)` for a number below 65536, in `json.dumps`. -/
def jsonEscape (n : Nat) : Str :=
  ['\\', 'u', hexDigit (n / 4096), hexDigit (n / 256), hexDigit (n / 16), hexDigit n]

/-- One character inside of a string as written by `json.dumps`. A character outside of the first
65536 is written as two escapes. -/
def jsonChar (c : Char) : Str :=
  if c = '"' then ['\\', '"']
  else if c = '\\' then ['\\', '\\']
  else if c = '\n' then ['\\', 'n']
  else if c = '\r' then ['\\', 'r']
  else if c = '\t' then ['\\', 't']
  else if c.toNat = 12 then ['\\', 'f']
  else if c.toNat = 8 then ['\\', 'b']
  else if 32 ≤ c.toNat ∧ c.toNat ≤ 126 then [c]
  else if c.toNat < 65536 then jsonEscape c.toNat
  else jsonEscape (0xD800 + (c.toNat - 0x10000) / 1024) ++ jsonEscape (0xDC00 + (c.toNat - 0x10000) % 1024)

/-- `json.dumps` of a string. -/
def jsonStr (s : Str) : Str := '"' :: (s.flatMap jsonChar ++ ['"'])

/-- A dictionary key as `json.dumps` writes it: keys that are no strings become strings. -/
def jsonKey : Key → Str
  | .none => jsonStr (S "null")
  | .bool true => jsonStr (S "true")
  | .bool false => jsonStr (S "false")
  | .int i => jsonStr (intStr i)
  | .float t => jsonStr t
  | .str s => jsonStr s

mutual
/-- `json.dumps`. -/
def json : Val → Str
  | .none => S "null"
  | .bool true => S "true"
  | .bool false => S "false"
  | .int i => intStr i
  | .float t => t
  | .str s => jsonStr s
  | .list l => '[' :: (jsonItems l ++ [']'])
  | .dict d => '{' :: (jsonEntries d ++ ['}'])
/-- The items of a list, separated by `, `. -/
def jsonItems : List Val → Str
  | [] => []
  | [v] => json v
  | v :: w :: r => json v ++ (',' :: ' ' :: jsonItems (w :: r))
/-- The entries of a dictionary, separated by `, `. -/
def jsonEntries : List (Key × Val) → Str
  | [] => []
  | [(k, v)] => jsonKey k ++ (':' :: ' ' :: json v)
  | (k, v) :: e :: r => jsonKey k ++ (':' :: ' ' :: (json v ++ (',' :: ' ' :: jsonEntries (e :: r))))
end

/-- The third column of the tables of fields, `yaml_source.py` 27-41 and 59-68. -/
inductive IncludeIf where
  /-- `lambda v: v is not None` -/
  | notNone
  /-- `lambda v: v is True` -/
  | isTrue
  /-- `lambda v: v != INHERIT` -/
  | notInherit

/-- The function in the third column. -/
def IncludeIf.test : IncludeIf → Val → Bool
  | .notNone, v => decide (v ≠ .none)
  | .isTrue, v => decide (v = .bool true)
  | .notInherit, v => decide (v ≠ .str (S "INHERIT"))

/-- A row of the tables. -/
structure YamlField where
  name : Str
  default : Val
  includeIf : IncludeIf

/-- The table of `option_to_yaml`, `yaml_source.py` 27-41. -/
def optionFields : List YamlField := [
  ⟨S "metavar", .none, .notNone⟩,
  ⟨S "help", .none, .notNone⟩,
  ⟨S "optional_arg", .bool false, .isTrue⟩,
  ⟨S "groups", .none, .notNone⟩,
  ⟨S "repeatable", .str (S "INHERIT"), .notInherit⟩,
  ⟨S "final", .bool false, .isTrue⟩,
  ⟨S "hidden", .bool false, .isTrue⟩,
  ⟨S "complete", .none, .notNone⟩,
  ⟨S "nosort", .none, .isTrue⟩,
  ⟨S "when", .none, .notNone⟩,
  ⟨S "capture", .none, .notNone⟩,
  ⟨S "long_opt_arg_sep", .str (S "INHERIT"), .notInherit⟩]

/-- The table of `positional_to_yaml`, `yaml_source.py` 59-68. -/
def positionalFields : List YamlField := [
  ⟨S "metavar", .none, .notNone⟩,
  ⟨S "help", .none, .notNone⟩,
  ⟨S "repeatable", .bool false, .isTrue⟩,
  ⟨S "complete", .none, .notNone⟩,
  ⟨S "nosort", .none, .isTrue⟩,
  ⟨S "when", .none, .notNone⟩,
  ⟨S "capture", .none, .notNone⟩]

/-- `dictionary.get(name, default)`. -/
def YamlField.get (d : List (Key × Val)) (f : YamlField) : Val := (getKey d f.name).getD f.default

/-- One round of the loops `yaml_source.py` 45-49 and 72-76: a line or nothing. -/
def fieldLine (d : List (Key × Val)) (f : YamlField) : Option Str :=
  if f.includeIf.test (f.get d) then some (S "  " ++ f.name ++ S ": " ++ json (f.get d)) else none

/-- `option_to_yaml`, `yaml_source.py` 22-51. A missing `option_strings` is a KeyError. -/
def optionToYaml (d : List (Key × Val)) : Except Err Str :=
  match getKey d (S "option_strings") with
  | none => .error .crash
  | some v => .ok (joinWith ['\n'] ((S "- option_strings: " ++ json v) :: optionFields.filterMap (fieldLine d)))

/-- `str(number)` in `f'- number: {number}'`, `yaml_source.py` 70. (Simplification: lists and
dictionaries, which are not exported as numbers, are written as JSON.) -/
def pyStr : Val → Str
  | .none => S "None"
  | .bool true => S "True"
  | .bool false => S "False"
  | .int i => intStr i
  | .float t => t
  | .str s => s
  | v => json v

/-- `positional_to_yaml`, `yaml_source.py` 54-78. -/
def positionalToYaml (d : List (Key × Val)) : Except Err Str :=
  match getKey d (S "number") with
  | none => .error .crash
  | some v => .ok (joinWith ['\n'] ((S "- number: " ++ pyStr v) :: positionalFields.filterMap (fieldLine d)))

/-- The lines `if x is not None: r += 'x: %s\n'` and `if x != INHERIT: ...`, `yaml_source.py` 96-112. -/
def commandFields : List YamlField := [
  ⟨S "aliases", .none, .notNone⟩,
  ⟨S "help", .none, .notNone⟩,
  ⟨S "wraps", .none, .notNone⟩,
  ⟨S "abbreviate_commands", .str (S "INHERIT"), .notInherit⟩,
  ⟨S "abbreviate_options", .str (S "INHERIT"), .notInherit⟩,
  ⟨S "inherit_options", .str (S "INHERIT"), .notInherit⟩]

/-- One of these. -/
def commandLine (d : List (Key × Val)) (f : YamlField) : Option Str :=
  if f.includeIf.test (f.get d) then some (f.name ++ S ": " ++ json (f.get d) ++ S "\n") else none

/-- The loops `yaml_source.py` 116-118 and 122-124: `write` is `option_to_yaml` or
`positional_to_yaml`. Items that are not dictionaries are a TypeError. -/
def itemsToYaml (write : List (Key × Val) → Except Err Str) : List Val → Except Err Str
  | [] => .ok []
  | v :: vs => do
    let d ← asDict v
    let t ← write d
    .ok (indent t 2 ++ S "\n\n" ++ (← itemsToYaml write vs))

/-- `if options:` and `if positionals:`, `yaml_source.py` 114-118 and 120-124. (Simplification: a
value that is not a list, which Python would try to iterate over, is a crash.) -/
def sectionToYaml (write : List (Key × Val) → Except Err Str) (name : Str) (d : List (Key × Val)) :
    Except Err Str :=
  match getKey d name with
  | none => .ok []
  | some .none => .ok []
  | some (.list []) => .ok []
  | some (.list l) => do .ok (name ++ S ":\n" ++ (← itemsToYaml write l))
  | some _ => .error .crash

/-- `to_yaml`, `yaml_source.py` 81-126. -/
def toYaml (d : List (Key × Val)) : Except Err Str :=
  match getKey d (S "prog") with
  | none => .error .crash
  | some prog => do
    let options ← sectionToYaml optionToYaml (S "options") d
    let positionals ← sectionToYaml positionalToYaml (S "positionals") d
    .ok (rstrip (S "prog: " ++ json prog ++ S "\n" ++ (commandFields.filterMap (commandLine d)).flatten ++
      options ++ positionals))

/-- The loop `yaml_source.py` 135-136. -/
def docsToYaml : List Val → Except Err (List Str)
  | [] => .ok []
  | v :: vs => do
    let d ← asDict v
    let t ← toYaml d
    .ok (t :: (← docsToYaml vs))

/-- `commandline_to_yaml`, `yaml_source.py` 129-138. -/
def commandlineToYaml (c : Cmd) : Except Err Str := do
  .ok (joinWith (S "\n---\n") (← docsToYaml (cmdToDicts [] c)))

end CC
