import Verif.Model.Py
/-!
# Model of `crazy_complete/shell.py`
-/

namespace CC

/-- The safe character class (letters, digits, `_@%+=:,.`, slash, dash) of `shell.py` line 38. -/
def isSafeChar (c : Char) : Bool :=
  isAsciiAlnum c || c == '_' || c == '@' || c == '%' || c == '+' || c == '=' || c == ':' ||
  c == ',' || c == '.' || c == '/' || c == '-'

/-- `needs_quote`, `shell.py` 35-38: not a full match of one or more safe characters. -/
def needsQuote (s : Str) : Bool := !(!s.isEmpty && s.all isSafeChar)

/-- The three replacements of `shell.py` 67-69, in the same order. -/
def escapeDouble (s : Str) : Str :=
  replaceChar '`' ['\\', '`'] (replaceChar '$' ['\\', '$'] (replaceChar '\\' ['\\', '\\'] s))

/-- `quote`, `shell.py` 41-73. -/
def quote (s : Str) (quoteEmpty : Bool := true) : Str :=
  if s.isEmpty && !quoteEmpty then []
  else if !needsQuote s then s
  else if !s.contains '\'' then ['\''] ++ s ++ ['\'']
  else if !s.contains '"' then ['"'] ++ escapeDouble s ++ ['"']
  else ['\''] ++ replaceChar '\'' ['\'', '"', '\'', '"', '\''] s ++ ['\'']

/-- `join_quoted`, `shell.py` 76-79. -/
def joinQuoted (args : List Str) (sep : Str := [' ']) : Str :=
  joinWith sep (args.map (fun a => quote a))

/-- `re.sub('_+', '_', string)`, `shell.py` 29. -/
def collapseUnderscores : Str → Str
  | [] => []
  | c :: cs =>
    if c = '_' then
      match collapseUnderscores cs with
      | '_' :: r => '_' :: r
      | r => '_' :: r
    else c :: collapseUnderscores cs

/-- `make_identifier`, `shell.py` 11-32. -/
def makeIdentifier (s : Str) : Str :=
  let s1 := s.map (fun c => if c = '-' then '_' else c)
  let s2 := s1.filter (fun c => isAsciiAlnum c || c == '_')
  let s3 := collapseUnderscores s2
  match s3 with
  | [] => []
  | c :: cs => if isAsciiDigit c then '_' :: c :: cs else c :: cs

end CC
