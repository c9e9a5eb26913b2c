import Verif.Model.HelpParser
import Verif.Model.YamlExport
/-!
# Model of `crazy_complete/help_converter.py`

A definition in YAML is written from the `--help` output of a program. The text of the file is
taken as `open(file, 'r')` delivers it, that is, every line ends in `\n`.
-/

namespace CC

/-- `s.replace('-\n', '-')`, `help_converter.py` 20. -/
def joinHyphens : Str → Str
  | [] => []
  | '-' :: '\n' :: cs => '-' :: joinHyphens cs
  | c :: cs => c :: joinHyphens cs

/-- `fix_description`, `help_converter.py` 11-23. -/
def fixDescription (s : Str) : Str := replaceChar '\n' [' '] (joinHyphens (strip s))

/-- `if s and s[0] == a and s[-1] == b: s = s[1:-1]` for two different characters,
`help_converter.py` 29-30 and 35-36. -/
def dropPair (a b : Char) (s : Str) : Str :=
  if s.head? = some a ∧ s.getLast? = some b then (s.drop 1).dropLast else s

/-- `if s and s[0] == '=': s = s[1:]`, `help_converter.py` 32-33. -/
def dropEquals (s : Str) : Str := if s.head? = some '=' then s.drop 1 else s

/-- `strip_metavar`, `help_converter.py` 26-38. -/
def stripMetavar (s : Str) : Str := dropPair '<' '>' (dropEquals (dropPair '[' ']' s))

/-- `s.lstrip(chars)`. -/
def lstripSet (cs : List Char) (s : Str) : Str := s.dropWhile (cs.contains ·)

/-- `s.strip(chars)`. -/
def stripSet (cs : List Char) (s : Str) : Str := (lstripSet cs (lstripSet cs s).reverse).reverse

/-- `s.endswith(p)`. -/
def endsWith (s p : Str) : Bool := startsWith s.reverse p.reverse

/-- The table `equals`, `help_converter.py` 47-65. -/
def metavarEquals : List (Str × Str) := [
  (S "f", S "file"), (S "n", S "integer"), (S "duration", S "integer"), (S "bits", S "integer"),
  (S "cols", S "integer"), (S "column", S "integer"), (S "digits", S "integer"), (S "size", S "integer"),
  (S "bytes", S "integer"), (S "pid", S "pid"), (S "user", S "user"), (S "group", S "group"),
  (S "program", S "command"), (S "command", S "command"), (S "cmd", S "cmd"), (S "signal", S "signal"),
  (S "sig", S "signal")]

/-- The table `endswith`, `help_converter.py` 67-77. -/
def metavarEndswith : List (Str × Str) := [
  (S "file", S "file"), (S "filename", S "file"), (S "dir", S "directory"), (S "directory", S "directory"),
  (S "seconds", S "integer"), (S "length", S "integer"), (S "width", S "integer"), (S "num", S "integer"),
  (S "number", S "integer")]

/-- `['choices', [item.strip() for item in string.split(sep)]]`, `help_converter.py` 90. -/
def choicesOf (sep : Char) (s : Str) : List Val :=
  [.str (S "choices"), .list ((splitOn sep s).map (fun i => .str (strip i)))]

/-- `help_converter.py` 86-92. -/
def completeForBraces (s : Str) : List Val :=
  if s.head? = some '{' ∧ s.getLast? = some '}' then
    let t := stripSet ['{', '}'] s
    if '|' ∈ t then choicesOf '|' t
    else if ',' ∈ t then choicesOf ',' t
    else [.str (S "none")]
  else [.str (S "none")]

/-- `complete_for_metavar`, `help_converter.py` 41-92. `lower` only changes ASCII letters; the words
of the tables have no letter that is the lower case of another character. -/
def completeForMetavar (s : Str) : List Val :=
  let s := stripSet ['<', '>'] s
  match metavarEquals.find? (fun e => e.1 == lower s) with
  | some e => [.str e.2]
  | none =>
    match metavarEndswith.find? (fun e => endsWith (lower s) e.1) with
    | some e => [.str e.2]
    | none => completeForBraces s

/-- Does the text start with `usage:`, whatever the case? (`re.I` lets `ſ` count as `s`.) The rest. -/
def afterUsage (s : Str) : Option Str :=
  match s with
  | u :: s' :: a :: g :: e :: ':' :: r =>
    if asciiLower u = 'u' ∧ (asciiLower s' = 's' ∨ s'.toNat = 0x17F) ∧ asciiLower a = 'a' ∧ asciiLower g = 'g' ∧
      asciiLower e = 'e' then some r else none
  | _ => none

/-- `[\n\t ]`, `help_parser.py` 333. -/
def isUsageSpace (c : Char) : Bool := c == '\n' || c == '\t' || c == ' '

/-- `re.match('usage:[\n\t ]+([^\n\t ]+)', string, re.I)`, `help_parser.py` 333: the group. -/
def usageName (s : Str) : Option Str :=
  match afterUsage s with
  | none => none
  | some r =>
    if r.takeWhile isUsageSpace = [] then none
    else
      let w := (r.dropWhile isUsageSpace).takeWhile (fun c => !isUsageSpace c)
      if w = [] then none else some w

/-- `get_program_name_from_help`, `help_parser.py` 331-336. `string.split()[0]` raises an IndexError
if there is no word. -/
def programName (s : Str) : Except Err Str :=
  match usageName s with
  | some w => .ok w
  | none =>
    let w := (lstrip s).takeWhile (fun c => !pyIsSpace c)
    if w = [] then .error .crash else .ok w

/-- The entries `metavar`, `complete` of the dictionary and whether `optional_arg` is set, after the
loop `help_converter.py` 120-128. -/
structure HelpDict where
  metavar : Option Str := none
  optional : Bool := false
  complete : Option (List Val) := none

/-- One round of the loop `help_converter.py` 120-128 (but for the option string). -/
def HelpDict.add (d : HelpDict) (o : HelpOption) : HelpDict :=
  let d := if o.optional then { d with optional := true } else d
  match o.metavar with
  | none => d
  | some m =>
    if m = [] then d
    else { d with metavar := some (stripMetavar m), complete := some (completeForMetavar (stripMetavar m)) }

/-- `option_dict` after the loop, `help_converter.py` 113-128. -/
def optionDict (os : List HelpOption) (description : Option Str) : List (Key × Val) :=
  let d := os.foldl HelpDict.add {}
  [(.str (S "option_strings"), .list (os.map (fun o => .str o.option))),
   (.str (S "metavar"), match d.metavar with | none => .none | some m => .str m),
   (.str (S "optional_arg"), .bool d.optional),
   (.str (S "help"), .str (fixDescription (description.getD [])))] ++
  (match d.complete with | none => [] | some l => [(.str (S "complete"), .list l)])

/-- One round of the loop `help_converter.py` 109-134: what is appended to `output`. -/
def itemOutput : HelpItem → Except Err (List Str)
  | .unparsed t => .ok [S "# " ++ rstrip t]
  | .options os d => do .ok [indent (← optionToYaml (optionDict os d)) 2, []]

/-- The loop `help_converter.py` 109-134. -/
def itemsOutput : List HelpItem → Except Err (List Str)
  | [] => .ok []
  | i :: is => do
    let l ← itemOutput i
    .ok (l ++ (← itemsOutput is))

/-- The first element of `output`, `help_converter.py` 107. -/
def helpHeader (prog : Str) : Str :=
  S "prog: \"" ++ prog ++ S "\"\nhelp: \"<Program description here>\"\noptions:"

/-- `from_file_to_yaml`, `help_converter.py` 95-136, after the file has been read. -/
def helpToYaml (content : Str) : Except Err Str := do
  let prog ← programName content
  let items ← parseHelp content
  .ok (joinWith ['\n'] (helpHeader prog :: (← itemsOutput items)))

end CC
