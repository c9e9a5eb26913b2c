import Verif.Model.Py
import Verif.Spec.ShellGrammar
/-!
# Model of `crazy_complete/shell_parser.py` and the quote readers of `string_stream.py`

The stream position is modelled by the remaining text. Lexer tokens and command tokens are
`ShellGrammar.Tok`: `!`, `(`, `)`, `&&`, `||`, and `cmd` for a `Literal` (payload `Str`) or a
`Command` (payload `List Str`).
-/

namespace CC

open ShellGrammar (Tok)

/-- `StringStream.parse_shell_single_quote`, `string_stream.py` 45-62, after the opening quote:
the content and the remaining text, or ValueError. -/
def parseSingleQuote : Str → Except Err (Str × Str)
  | [] => .error .valueError
  | c :: cs =>
    if c = '\'' then .ok ([], cs)
    else match parseSingleQuote cs with
      | .ok (s, r) => .ok (c :: s, r)
      | .error e => .error e

/-- `StringStream.parse_shell_double_quote`, `string_stream.py` 64-88, after the opening quote. -/
def parseDoubleQuote : Str → Except Err (Str × Str)
  | [] => .error .valueError
  | [c] => if c = '"' then .ok ([], []) else .error .valueError
  | c :: d :: ds =>
    if c = '\\' then
      match parseDoubleQuote ds with
      | .ok (s, r) => .ok (d :: s, r)
      | .error e => .error e
    else if c = '"' then .ok ([], d :: ds)
    else match parseDoubleQuote (d :: ds) with
      | .ok (s, r) => .ok (c :: s, r)
      | .error e => .error e

theorem parseSingleQuote_length {s q r : Str} (h : parseSingleQuote s = .ok (q, r)) :
    r.length < s.length := by
  induction s generalizing q r with
  | nil => simp [parseSingleQuote] at h
  | cons c cs ih =>
    simp only [parseSingleQuote] at h
    split at h
    · simp at h; simp [h.2]
    · split at h
      · rename_i heq
        simp at h
        have := ih heq
        simp [← h.2]; omega
      · cases h

theorem parseDoubleQuote_length {s q r : Str} (h : parseDoubleQuote s = .ok (q, r)) :
    r.length < s.length := by
  match s with
  | [] => simp [parseDoubleQuote] at h
  | [c] => simp only [parseDoubleQuote] at h; split at h <;> simp_all
  | c :: d :: ds =>
    simp only [parseDoubleQuote] at h
    split at h
    · split at h
      · rename_i heq
        simp at h
        have := parseDoubleQuote_length heq
        simp [← h.2]; omega
      · cases h
    · split at h
      · simp at h; simp [← h.2]
      · split at h
        · rename_i heq
          simp at h
          have := parseDoubleQuote_length heq
          simp at this
          simp [← h.2]; omega
        · cases h

/-- The characters that end a literal besides blanks, `shell_parser.py` 89. -/
def isOperatorChar (c : Char) : Bool := c == '&' || c == '|' || c == '!' || c == '(' || c == ')'

/-- `Lexer._parse_literal`, `shell_parser.py` 77-93: the literal and the remaining text. -/
def parseLiteral (acc : Str) (s : Str) : Except Err (Str × Str) :=
  match s with
  | [] => .ok (acc, [])
  | c :: cs =>
    if c = '"' then
      match h : parseDoubleQuote cs with
      | .ok (q, r) =>
        have := parseDoubleQuote_length h
        parseLiteral (acc ++ q) r
      | .error e => .error e
    else if c = '\'' then
      match h : parseSingleQuote cs with
      | .ok (q, r) =>
        have := parseSingleQuote_length h
        parseLiteral (acc ++ q) r
      | .error e => .error e
    else if pyIsSpace c || isOperatorChar c then .ok (acc, c :: cs)
    else parseLiteral (acc ++ [c]) cs
termination_by s.length
decreasing_by all_goals simp_all <;> omega

/-- `Lexer._parse_token`, `shell_parser.py` 49-75: the next token, if any, and the remaining text. -/
def parseToken : Str → Except Err (Option (Tok Str × Str))
  | [] => .ok none
  | c :: cs =>
    if c = '!' then .ok (some (.bang, cs))
    else if c = '(' then .ok (some (.lpar, cs))
    else if c = ')' then .ok (some (.rpar, cs))
    else if pyIsSpace c then parseToken cs
    else if c = '&' then
      match cs with
      | d :: r => if d = '&' then .ok (some (.and, r)) else .error .valueError
      | [] => .error .valueError
    else if c = '|' then
      match cs with
      | d :: r => if d = '|' then .ok (some (.or, r)) else .error .valueError
      | [] => .error .valueError
    else match parseLiteral [] (c :: cs) with
      | .ok (l, r) => .ok (some (.cmd l, r))
      | .error e => .error e

theorem parseLiteral_length {acc s l r : Str} (h : parseLiteral acc s = .ok (l, r)) :
    r.length ≤ s.length := by
  induction hn : s.length using Nat.strongRecOn generalizing s acc with
  | _ n ih =>
  subst hn
  unfold parseLiteral at h
  split at h
  · simp at h; simp [h.2]
  · split at h
    · split at h
      · rename_i heq
        have h1 := parseDoubleQuote_length heq
        have := ih _ (by simp; omega) h rfl
        simp; omega
      · cases h
    · split at h
      · split at h
        · rename_i heq
          have h1 := parseSingleQuote_length heq
          have := ih _ (by simp; omega) h rfl
          simp; omega
        · cases h
      · split at h
        · simp at h; simp [← h.2]
        · have := ih _ (by simp) h rfl
          simp; omega

theorem parseToken_length {s r : Str} {t : Tok Str} (h : parseToken s = .ok (some (t, r))) :
    r.length < s.length := by
  induction s with
  | nil => simp [parseToken] at h
  | cons c cs ih =>
    simp only [parseToken] at h
    split at h
    · simp at h; simp [h.2]
    rename_i h1
    split at h
    · simp at h; simp [h.2]
    rename_i h2
    split at h
    · simp at h; simp [h.2]
    rename_i h3
    split at h
    · have := ih h; simp; omega
    rename_i h4
    split at h
    · split at h
      · split at h
        · simp at h; simp [h.2]; omega
        · cases h
      · cases h
    rename_i h5
    split at h
    · split at h
      · split at h
        · simp at h; simp [h.2]; omega
        · cases h
      · cases h
    rename_i h6
    split at h
    · rename_i heq
      simp at h
      obtain ⟨-, rfl⟩ := h
      rw [parseLiteral] at heq
      split at heq
      · split at heq
        · rename_i hq
          have := parseDoubleQuote_length hq
          have := parseLiteral_length heq
          simp; omega
        · cases heq
      · split at heq
        · split at heq
          · rename_i hq
            have := parseSingleQuote_length hq
            have := parseLiteral_length heq
            simp; omega
          · cases heq
        · split at heq
          · rename_i hsp
            simp [h4, isOperatorChar, h1, h2, h3, h5, h6] at hsp
          · have := parseLiteral_length heq
            simp; omega
    · cases h

/-- `Lexer.parse`, `shell_parser.py` 38-47. -/
def lex (s : Str) : Except Err (List (Tok Str)) :=
  match h : parseToken s with
  | .error e => .error e
  | .ok none => .ok []
  | .ok (some (t, r)) =>
    have := parseToken_length h
    match lex r with
    | .ok ts => .ok (t :: ts)
    | .error e => .error e
termination_by s.length

/-- `make_commands`, `shell_parser.py` 96-121; `cur` is `current.args`. -/
def makeCommandsGo (cur : List Str) : List (Tok Str) → List (Tok (List Str))
  | [] => if cur.isEmpty then [] else [.cmd cur]
  | .cmd a :: ts => makeCommandsGo (cur ++ [a]) ts
  | .bang :: ts => (if cur.isEmpty then [] else [.cmd cur]) ++ .bang :: makeCommandsGo [] ts
  | .lpar :: ts => (if cur.isEmpty then [] else [.cmd cur]) ++ .lpar :: makeCommandsGo [] ts
  | .rpar :: ts => (if cur.isEmpty then [] else [.cmd cur]) ++ .rpar :: makeCommandsGo [] ts
  | .and :: ts => (if cur.isEmpty then [] else [.cmd cur]) ++ .and :: makeCommandsGo [] ts
  | .or :: ts => (if cur.isEmpty then [] else [.cmd cur]) ++ .or :: makeCommandsGo [] ts

/-- `make_commands`, `shell_parser.py` 96-121. -/
def makeCommands (ts : List (Tok Str)) : List (Tok (List Str)) := makeCommandsGo [] ts

/-- `last in (None, '(', '&&', '||', '!')`, used in `check_syntax`. -/
def expectsOperand {α} : Option (Tok α) → Bool
  | none => true
  | some .lpar => true
  | some .and => true
  | some .or => true
  | some .bang => true
  | some .rpar => false
  | some (.cmd _) => false

/-- The loop of `check_syntax`, `shell_parser.py` 127-155; `par` is `parentheses`. -/
def checkSyntaxGo {α} (last : Option (Tok α)) (par : Int) : List (Tok α) → Except Err Unit
  | [] =>
    if par > 0 then .error .valueError
    else if last.isNone then .error .valueError
    else .ok ()
  | .lpar :: ts =>
    if expectsOperand last then checkSyntaxGo (some .lpar) (par + 1) ts else .error .valueError
  | .rpar :: ts =>
    if par - 1 < 0 || expectsOperand last then .error .valueError
    else checkSyntaxGo (some .rpar) (par - 1) ts
  | .and :: ts =>
    if expectsOperand last then .error .valueError else checkSyntaxGo (some .and) par ts
  | .or :: ts =>
    if expectsOperand last then .error .valueError else checkSyntaxGo (some .or) par ts
  | .bang :: ts =>
    if expectsOperand last then checkSyntaxGo (some .bang) par ts else .error .valueError
  | .cmd a :: ts => checkSyntaxGo (some (.cmd a)) par ts

/-- `check_syntax`, `shell_parser.py` 124-155. -/
def checkSyntax {α} (ts : List (Tok α)) : Except Err Unit := checkSyntaxGo none 0 ts

/-- `parse`, `shell_parser.py` 158-164. -/
def shellParse (s : Str) : Except Err (List (Tok (List Str))) :=
  match lex s with
  | .error e => .error e
  | .ok ts =>
    match checkSyntax (makeCommands ts) with
    | .error e => .error e
    | .ok () => .ok (makeCommands ts)

end CC
