import Verif.Model.Py

/-!
Model of `crazy_complete/help_parser.py`: reading the `--help` output of a
program.

A `CharStream` (21-73) is a string and a position that only moves forward; the
model keeps the part of the string that is still to be read, so a reader is a
function from the remaining text to its result and the new remaining text.  A
copy of the stream is the same remaining text.

Loops whose step reads a variable amount of text carry a counter that starts at
the number of characters left plus one.  Running out of it is the error
`valueError`, which nothing else here raises; that it never happens is proved.
-/

namespace CC

/-- `CharStream.is_space`, 53-55: space or tab. -/
def isSpTab (c : Char) : Bool := c == ' ' || c == '\t'

/-- `OPTION_BREAK_CHARS`, 10-11. -/
def isBreakChar (c : Char) : Bool :=
  c == ' ' || c == '\t' || c == '\n' || c == ',' || c == '|' || c == '=' || c == '['

/-- `OPTION_DELIMITER_CHARS`, 13-14. -/
def isDelimChar (c : Char) : Bool := c == ',' || c == '|'

/-- `OptionWithMetavar`, 17. -/
structure HelpOption where
  option : Str
  metavar : Option Str
  optional : Bool
deriving DecidableEq, Repr

/-- The items of the result of `parse`: `Unparsed`, 16, and
`OptionsWithDescription`, 18. -/
inductive HelpItem where
  | unparsed (text : Str)
  | options (options : List HelpOption) (description : Option Str)
deriving DecidableEq, Repr

/-- `eat_line`, 76-84: the rest of the line with its newline, and what follows. -/
def eatLine : Str → Str × Str
  | [] => ([], [])
  | c :: cs => if c = '\n' then ([c], cs) else (c :: (eatLine cs).1, (eatLine cs).2)

/-- `eat_space`, 87-92: the spaces and tabs, and what follows. -/
def eatSpace (s : Str) : Str × Str := (s.takeWhile isSpTab, s.dropWhile isSpTab)

/-- `parse_option_string`, 95-119. -/
def parseOptionString (s : Str) : Option (Str × Str) :=
  match (eatSpace s).2 with
  | [] => none
  | c :: cs =>
    if c = '-' then
      let option := (c :: cs).takeWhile (fun x => !isBreakChar x)
      if option = ['-'] ∨ option = ['-', '-'] then none
      else some (option, (c :: cs).dropWhile (fun x => !isBreakChar x))
    else none

/-- The closing character of `parse_bracket`, 133, and of `parse_quoted_string`,
158-166. -/
def closingOf (c : Char) : Option Char :=
  if c = '<' then some '>' else if c = '[' then some ']' else if c = '(' then some ')'
  else if c = '{' then some '}' else if c = '"' then some '"'
  else if c = '\'' then some '\'' else none

/-- `parse_metavar`, 172-201, with `parse_bracket`, 122-144, and
`parse_quoted_string`, 147-169, written as one loop over the characters: the
first argument is the closing character that the inner loop is waiting for, and
`none` outside of brackets and quotes. -/
def metavarGo : Option Char → Str → Str × Str
  | _, [] => ([], [])
  | some q, c :: cs =>
    let r := metavarGo (if c = q then none else some q) cs
    (c :: r.1, r.2)
  | none, c :: cs =>
    if isSpTab c || c == '\n' then ([], c :: cs)
    else if isDelimChar c then ([], c :: cs)
    else
      let r := metavarGo (closingOf c) cs
      (c :: r.1, r.2)

/-- `parse_metavar`, 172-201. -/
def parseMetavar (s : Str) : Str × Str := metavarGo none s

/-- `parse_trailing_description_line`, 204-223: the line, without the space in
front of it, and what follows. -/
def parseTrailing (s : Str) : Option (Str × Str) :=
  match s with
  | [] => none
  | c :: _ =>
    if isSpTab c then
      let space := (eatSpace s).1
      let p := (eatSpace s).2
      if p.head? = some '-' ∧ space.length < 10 then none
      else some (eatLine p)
    else none

/-- The loop of `parse_description`, 230-235.  A line that is the empty string is
read but ends the loop. -/
def trailingGo : Nat → Str → Str × Str
  | 0, s => ([], s)
  | n + 1, s =>
    match parseTrailing s with
    | none => ([], s)
    | some (line, s') =>
      if line = [] then ([], s')
      else (line ++ (trailingGo n s').1, (trailingGo n s').2)

/-- `parse_description`, 226-237. -/
def parseDescription (s : Str) : Str × Str :=
  let l := eatLine (eatSpace s).2
  let r := trailingGo (l.2.length + 1) l.2
  (l.1 ++ r.1, r.2)

/-- `parse_option_delimiter`, 281-288: the text after the delimiter if there is
one.  `p.get()` raises `IndexError` at the end of the text. -/
def parseOptionDelimiter (s : Str) : Except Err (Option Str) :=
  match (eatSpace s).2 with
  | [] => .error .crash
  | c :: cs => .ok (if isDelimChar c then some cs else none)

/-- `stream.peek_str(2).isspace()`, 265. -/
def twoSpaces (s : Str) : Bool := !(s.take 2).isEmpty && (s.take 2).all pyIsSpace

/-- `parse_option_with_metavar`, 255-276: what follows the option string `opt`. -/
def metavarAfter (opt : Str) (s : Str) : Except Err (HelpOption × Str) :=
  if s.take 2 = ['[', '='] then
    .ok (⟨opt, some (parseMetavar s).1, true⟩, (parseMetavar s).2)
  else if s.head? = some '=' then
    .ok (⟨opt, some (parseMetavar s.tail).1, false⟩, (parseMetavar s.tail).2)
  else if twoSpaces s then .ok (⟨opt, none, false⟩, s)
  else
    match parseOptionDelimiter s with
    | .error e => .error e
    | .ok (some _) => .ok (⟨opt, none, false⟩, s)
    | .ok none =>
      if (s.head?.map isSpTab) = some true then
        .ok (⟨opt, some (parseMetavar s.tail).1, false⟩, (parseMetavar s.tail).2)
      else .ok (⟨opt, none, false⟩, s)

/-- `parse_option_with_metavar`, 240-278. -/
def parseOptionWithMetavar (s : Str) : Except Err (Option (HelpOption × Str)) :=
  match parseOptionString s with
  | none => .ok none
  | some (opt, s') =>
    match metavarAfter opt s' with
    | .error e => .error e
    | .ok r => .ok (some r)

/-- The loop of `parse_options_with_description`, 296-304. -/
def helpOptionsGo : Nat → Str → Except Err (List HelpOption × Str)
  | 0, _ => .error .valueError
  | n + 1, s =>
    if s = [] then .ok ([], s)
    else
      match parseOptionWithMetavar s with
      | .error e => .error e
      | .ok none => .ok ([], s)
      | .ok (some (o, s1)) =>
        match parseOptionDelimiter s1 with
        | .error e => .error e
        | .ok none => .ok ([o], s1)
        | .ok (some s2) =>
          match helpOptionsGo n s2 with
          | .error e => .error e
          | .ok (os, s3) => .ok (o :: os, s3)

/-- Lines 309-313 of `parse_options_with_description`: the description, if the
options are followed by blank space. -/
def withDescription (os : List HelpOption) (s : Str) : HelpItem × Str :=
  if (s.head?.map fun c => isSpTab c || c == '\n') = some true then
    (.options os (some (parseDescription s).1), (parseDescription s).2)
  else (.options os none, s)

/-- `parse_options_with_description`, 291-313. -/
def parseOptionsWithDescription (s : Str) : Except Err (Option (HelpItem × Str)) :=
  match helpOptionsGo (s.length + 1) s with
  | .error e => .error e
  | .ok (os, s') => if os = [] then .ok none else .ok (some (withDescription os s'))

/-- The loop of `parse`, 320-326. -/
def parseHelpGo : Nat → Str → Except Err (List HelpItem)
  | 0, _ => .error .valueError
  | n + 1, s =>
    if s = [] then .ok []
    else
      match parseOptionsWithDescription s with
      | .error e => .error e
      | .ok (some (item, s')) =>
        match parseHelpGo n s' with
        | .error e => .error e
        | .ok items => .ok (item :: items)
      | .ok none =>
        match parseHelpGo n (eatLine s).2 with
        | .error e => .error e
        | .ok items => .ok (.unparsed (eatLine s).1 :: items)

/-- `parse`, 316-328. -/
def parseHelp (s : Str) : Except Err (List HelpItem) := parseHelpGo (s.length + 1) s

end CC
