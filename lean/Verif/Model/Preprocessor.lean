import Verif.Model.Py
/-!
# Model of `crazy_complete/preprocessor.py`
-/

namespace CC

/-- A character at which Python's `str.splitlines` ends a line. -/
def isLineBreak (c : Char) : Bool :=
  let n := c.toNat
  (10 ≤ n && n ≤ 13) || (28 ≤ n && n ≤ 30) || n == 0x85 || n == 0x2028 || n == 0x2029

/-- Put a character in front of the first line. -/
def consLine (c : Char) : List Str → List Str
  | [] => [[c]]
  | l :: ls => (c :: l) :: ls

/-- Python `s.splitlines(keepends=True)`: every line keeps its line break; `\r\n` is one break;
an empty text has no lines. -/
def splitLines : Str → List Str
  | [] => []
  | [c] => [[c]]
  | c :: d :: r =>
    if c = '\r' ∧ d = '\n' then [c, d] :: splitLines r
    else if isLineBreak c then [c] :: splitLines (d :: r)
    else consLine c (splitLines (d :: r))

/-- The first word of a text and the text after it. -/
def takeWord : Str → Str × Str
  | [] => ([], [])
  | c :: cs => if pyIsSpace c then ([], c :: cs) else ((c :: (takeWord cs).1), (takeWord cs).2)

/-- `s.split()[1]` for a text that does not begin with a blank: the second word, if any. -/
def secondWord (s : Str) : Option Str :=
  match (takeWord (lstrip (takeWord s).2)).1 with
  | [] => none
  | w => some w

/-- The loop of `preprocess`, `preprocessor.py` 16-41, from a given stack (innermost block first)
to the end of the input; the kept lines are returned in order. -/
def preprocessGo (defines : List Str) : List Bool → List Str → Except Err (List Str)
  | stack, [] => if stack.isEmpty then .ok [] else .error .syntaxError
  | stack, line :: rest =>
    let stripped := lstrip line
    if startsWith stripped (S "#ifdef") then
      match secondWord stripped with
      | none => .error .crash
      | some d => preprocessGo defines (defines.contains d :: stack) rest
    else if startsWith stripped (S "#else") then
      match stack with
      | [] => .error .syntaxError
      | b :: st => preprocessGo defines ((!b) :: st) rest
    else if startsWith stripped (S "#endif") then
      match stack with
      | [] => .error .syntaxError
      | _ :: st => preprocessGo defines st rest
    else
      (preprocessGo defines stack rest).map
        (fun out => if stack.isEmpty || stack.all id then line :: out else out)

/-- `preprocess`, `preprocessor.py` 7-43. -/
def preprocess (s : Str) (defines : List Str) : Except Err Str :=
  (preprocessGo defines [] (splitLines s)).map List.flatten

end CC
