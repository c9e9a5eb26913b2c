import Verif.Model.Py
/-!
# Converting Bash globs: `crazy_complete/pattern.py`

The lexer and the parser loop until the input is used up. Here they recurse on a bound that is never
reached: the number of characters and of tokens, because every round consumes at least one.
-/

namespace CC

/-- A token of `GlobLexer`: a plain string, or a `Literal` object. Two literals are never equal to a
string (`Literal` defines no `__eq__`). pattern.py 22-34, 200-227. -/
inductive PTok where
  | tok (s : Str)
  | lit (s : Str)
deriving DecidableEq

/-- `str(token)`. pattern.py 30-31. -/
def PTok.str : PTok → Str
  | .tok s => s
  | .lit s => s

/-- `EXTGLOB_TOKENS_PRE`. pattern.py 180. -/
def extPre (c : Char) : Bool := (S "@*+?!").contains c

/-- `EXTGLOB_TOKENS`. pattern.py 179. -/
def isExtToken (s : Str) : Bool := match s with
  | [c, '('] => extPre c
  | _ => false

/-- `StringStream.parse_shell_single_quote(in_quotes=True)`: the text up to the closing quote and what
follows. string_stream.py 45-62. -/
def takeSingle : Str → Except Err (Str × Str)
  | [] => .error .valueError
  | c :: cs =>
    if c = '\'' then .ok ([], cs)
    else match takeSingle cs with
      | .ok (s, r) => .ok (c :: s, r)
      | .error e => .error e

/-- `StringStream.parse_shell_double_quote(in_quotes=True)`. string_stream.py 64-88. -/
def takeDouble : Str → Except Err (Str × Str)
  | [] => .error .valueError
  | c :: cs =>
    if c = '\\' then match cs with
      | [] => .error .valueError
      | d :: ds => match takeDouble ds with
        | .ok (s, r) => .ok (d :: s, r)
        | .error e => .error e
    else if c = '"' then .ok ([], cs)
    else match takeDouble cs with
      | .ok (s, r) => .ok (c :: s, r)
      | .error e => .error e

/-- Both conditions under which a literal ends. pattern.py 220-223. -/
def endsLiteral (c : Char) (rest : Str) : Bool :=
  (extPre c && rest.head? == some '(') || (S "*?[])|\"'").contains c

/-- The rest of a literal. pattern.py 216-225. -/
def takeLit : Str → Str × Str
  | [] => ([], [])
  | c :: cs => if endsLiteral c cs then ([], c :: cs) else (c :: (takeLit cs).1, (takeLit cs).2)

/-- `GlobLexer._parse_token`, after `c = self.get()`. pattern.py 200-227. -/
def lexGlobTok (c : Char) (cs : Str) : Except Err (PTok × Str) :=
  if extPre c && cs.head? == some '(' then .ok (.tok [c, '('], cs.tail)
  else if (S "[])?!*|").contains c then .ok (.tok [c], cs)
  else if c = '"' then match takeDouble cs with
    | .ok (s, r) => .ok (.lit s, r)
    | .error e => .error e
  else if c = '\'' then match takeSingle cs with
    | .ok (s, r) => .ok (.lit s, r)
    | .error e => .error e
  else .ok (.lit (c :: (takeLit cs).1), (takeLit cs).2)

/-- `GlobLexer.parse`; the first argument bounds the number of tokens. pattern.py 190-198. -/
def lexGlobN : Nat → Str → Except Err (List PTok)
  | _, [] => .ok []
  | 0, _ :: _ => .error .crash
  | n + 1, c :: cs => match lexGlobTok c cs with
    | .error e => .error e
    | .ok (t, r) => match lexGlobN n r with
      | .error e => .error e
      | .ok ts => .ok (t :: ts)

/-- `GlobLexer(pattern).parse()`. pattern.py 186-198. -/
def lexGlob (s : Str) : Except Err (List PTok) := lexGlobN s.length s

/-- What the parser returns for a token: the classes of pattern.py 22-113. `raw` is a token string that
`_parse_token` returns unchanged (pattern.py 322); it has no `to_regex` and no `to_zsh_glob`. -/
inductive Pat where
  | lit (s : Str)
  | star
  | question
  | cls (chars : Str) (negated : Bool)
  | ext (kind : Char) (alts : List (List Pat))
  | raw (s : Str)

/-- The loop of `GlobParser._parse_char_class`. pattern.py 277-286. -/
def parseClsLoop : List PTok → Str → Except Err (Str × List PTok)
  | [], _ => .error .valueError
  | t :: ts, chars => if t = .tok [']'] then .ok (chars, ts) else parseClsLoop ts (chars ++ t.str)

/-- `GlobParser._parse_char_class`. pattern.py 261-286. -/
def parseCls : List PTok → Except Err (Pat × List PTok)
  | [] => .error .valueError
  | t :: ts =>
    if t = .tok ['!'] then match parseClsLoop ts [] with
      | .ok (chars, r) => .ok (.cls chars true, r)
      | .error e => .error e
    else if t = .tok [']'] then .error .valueError
    else match parseClsLoop ts t.str with
      | .ok (chars, r) => .ok (.cls chars false, r)
      | .error e => .error e

/-- The end of `GlobParser._parse_token`: tokens that stand for themselves. pattern.py 313-317, 322. -/
def plainToken : PTok → Pat
  | .lit s => .lit s
  | .tok s => if s = ['*'] then .star else if s = ['?'] then .question else .raw s

mutual
/-- `GlobParser._parse_token`, after `token = self.get()`; the first argument bounds the number of
tokens. pattern.py 307-322. -/
def parseGlobTok : Nat → PTok → List PTok → Except Err (Pat × List PTok)
  | 0, _, _ => .error .crash
  | n + 1, t, ts =>
    if t = .tok ['['] then parseCls ts
    else if isExtToken t.str && t == .tok t.str then parseExt n (t.str.headD '@') [] [] ts
    else .ok (plainToken t, ts)
/-- The loop of `GlobParser._parse_ext_glob`: the finished alternatives and the current one.
pattern.py 288-305. -/
def parseExt : Nat → Char → List (List Pat) → List Pat → List PTok → Except Err (Pat × List PTok)
  | 0, _, _, _, _ => .error .crash
  | _ + 1, _, _, _, [] => .error .valueError
  | n + 1, k, alts, cur, t :: ts =>
    if t = .tok [')'] then .ok (.ext k (alts ++ [cur]), ts)
    else if t = .tok ['|'] then parseExt n k (alts ++ [cur]) [] ts
    else match parseGlobTok n t ts with
      | .error e => .error e
      | .ok (p, r) => parseExt n k alts (cur ++ [p]) r
end

/-- `GlobParser.parse`; the first argument bounds the number of tokens. pattern.py 254-259. -/
def parseGlobN : Nat → List PTok → Except Err (List Pat)
  | _, [] => .ok []
  | 0, _ :: _ => .error .crash
  | n + 1, t :: ts => match parseGlobTok (n + 1) t ts with
    | .error e => .error e
    | .ok (p, r) => match parseGlobN n r with
      | .error e => .error e
      | .ok ps => .ok (p :: ps)

/-- `GlobParser(tokens).parse()`. An extended glob takes two rounds of recursion for each token.
pattern.py 233-259. -/
def parseGlob (ts : List PTok) : Except Err (List Pat) := parseGlobN (2 * ts.length) ts

/-- Replacing several characters by themselves with a backslash in front, one after the other.
pattern.py 39-40, 90-91. -/
def escapeEach (escaped : Str) (s : Str) : Str := escaped.foldl (fun s c => replaceChar c ['\\', c] s) s

/-- One character of `Literal.to_zsh_glob`. pattern.py 48-53. -/
def zshLitChar (c : Char) : Str :=
  if (S "[]?*\" \\").contains c then ['\'', c, '\''] else if c = '\'' then ['"', c, '"'] else [c]

/-- One character of `CharClass.to_zsh_glob`. pattern.py 102-105. -/
def zshClsChar (c : Char) : Str := if (S "[]!").contains c then ['\'', c, '\''] else [c]

/-- The end of `ExtGlob.to_regex`. pattern.py 126-143. -/
def extRegex (k : Char) (p : Str) : Except Err Str :=
  if k = '@' then .ok p else if k = '*' then .ok (p ++ ['*']) else if k = '+' then .ok (p ++ ['+'])
  else if k = '?' then .ok (p ++ ['?']) else if k = '!' then .error .valueError else .error .crash

/-- The end of `ExtGlob.to_zsh_glob`. pattern.py 151-159. -/
def extZsh (k : Char) (p : Str) : Except Err Str :=
  if k = '@' then .ok p else if k = '*' ∨ k = '+' ∨ k = '?' ∨ k = '!' then .error .valueError else .error .crash

/-- Concatenate two results. -/
def appendE (a b : Except Err Str) : Except Err Str := match a, b with
  | .error e, _ => .error e
  | _, .error e => .error e
  | .ok s, .ok t => .ok (s ++ t)

mutual
/-- `to_regex` of the pattern classes. A plain string has no such method: `AttributeError`.
pattern.py 36-42, 61-62, 71-72, 87-96, 120-143. -/
def Pat.toRegex : Pat → Except Err Str
  | .lit s => .ok (escapeEach (S ".?*+|{}[]()") s)
  | .star => .ok (S ".*")
  | .question => .ok (S ".")
  | .cls chars neg => .ok (S (if neg then "[^" else "[") ++ escapeEach (S "^\\.[]") chars ++ S "]")
  | .ext k alts => match Pat.altsRegex alts with
    | .error e => .error e
    | .ok ps => extRegex k (S "(" ++ joinWith ['|'] ps ++ S ")")
  | .raw _ => .error .crash
/-- `PatternList.to_regex`. pattern.py 168-169. -/
def Pat.seqRegex : List Pat → Except Err Str
  | [] => .ok []
  | p :: ps => appendE p.toRegex (Pat.seqRegex ps)
/-- The loop of `ExtGlob.to_regex`. pattern.py 121-124. -/
def Pat.altsRegex : List (List Pat) → Except Err (List Str)
  | [] => .ok []
  | a :: as => match Pat.seqRegex a, Pat.altsRegex as with
    | .error e, _ => .error e
    | _, .error e => .error e
    | .ok s, .ok r => .ok (s :: r)
end

mutual
/-- `to_zsh_glob` of the pattern classes. pattern.py 44-55, 64-65, 74-75, 98-110, 145-159. -/
def Pat.toZsh : Pat → Except Err Str
  | .lit s => .ok (s.flatMap zshLitChar)
  | .star => .ok (S "*")
  | .question => .ok (S "?")
  | .cls chars neg => .ok (S (if neg then "[!" else "[") ++ chars.flatMap zshClsChar ++ S "]")
  | .ext k alts => match Pat.altsZsh alts with
    | .error e => .error e
    | .ok ps => extZsh k (S "(" ++ joinWith ['|'] ps ++ S ")")
  | .raw _ => .error .crash
/-- `PatternList.to_zsh_glob`. pattern.py 171-172. -/
def Pat.seqZsh : List Pat → Except Err Str
  | [] => .ok []
  | p :: ps => appendE p.toZsh (Pat.seqZsh ps)
/-- The loop of `ExtGlob.to_zsh_glob`. pattern.py 146-149. -/
def Pat.altsZsh : List (List Pat) → Except Err (List Str)
  | [] => .ok []
  | a :: as => match Pat.seqZsh a, Pat.altsZsh as with
    | .error e, _ => .error e
    | _, .error e => .error e
    | .ok s, .ok r => .ok (s :: r)
end

/-- `GlobParser(GlobLexer(pattern).parse()).parse()`. pattern.py 328-329, 336-337. -/
def readPats (s : Str) : Except Err (List Pat) := match lexGlob s with
  | .error e => .error e
  | .ok ts => parseGlob ts

/-- `bash_glob_to_regex`. pattern.py 325-330. -/
def bashGlobToRegex (s : Str) : Except Err Str := match readPats s with
  | .error e => .error e
  | .ok ps => Pat.seqRegex ps

/-- `bash_glob_to_zsh_glob`. pattern.py 333-338. -/
def bashGlobToZsh (s : Str) : Except Err Str := match readPats s with
  | .error e => .error e
  | .ok ps => Pat.seqZsh ps

end CC
