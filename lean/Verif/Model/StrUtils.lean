import Verif.Model.Py
/-!
# Model of `crazy_complete/str_utils.py` and `crazy_complete/output.py`
-/

namespace CC

/-- `is_empty_or_whitespace`, `str_utils.py` 22-25. -/
def isBlank (s : Str) : Bool := s.all pyIsSpace

/-- Truth of `line.strip()`, i.e. the stripped line is not empty. -/
def stripTruthy (s : Str) : Bool := !(strip s).isEmpty

/-- `indent`, `str_utils.py` 67-88. -/
def indent (s : Str) (n : Nat) : Str :=
  joinWith ['\n'] ((splitOn '\n' s).map (fun line =>
    if stripTruthy line then List.replicate n ' ' ++ line else line))

/-- The loop of `join_with_wrap`, `str_utils.py` 117-138, collecting the items of each line.
`cur` are `current_items`, `len` is `current_length`. -/
def wrapGo (sepLen preLen : Nat) (max : Int) (cur : List Str) (len : Nat) :
    List Str → List (List Str)
  | [] => if cur.isEmpty then [] else [cur]
  | item :: items =>
    let new := len + (if cur.isEmpty then 0 else sepLen) + item.length
    if !cur.isEmpty && decide ((new : Int) > max) then
      cur :: wrapGo sepLen preLen max [item] (preLen + item.length) items
    else wrapGo sepLen preLen max (cur ++ [item]) new items

/-- `join_with_wrap`, `str_utils.py` 91-138. -/
def joinWithWrap (sep sep2 : Str) (max : Int) (items : List Str) (pre : Str) : Str :=
  joinWith sep2 ((wrapGo sep.length pre.length max [] pre.length items).map
    (fun line => pre ++ joinWith sep line))

/-- `line.lstrip().startswith('#')`, `str_utils.py` 165. -/
def isCommentLine (line : Str) : Bool := startsWith (lstrip line) ['#']

/-- `strip_comments`, `str_utils.py` 159-170. -/
def stripComments (s : Str) : Str :=
  joinWith ['\n'] ((splitOn '\n' s).filter (fun line => !isCommentLine line))

/-- `strip_double_empty_lines`, `str_utils.py` 173-176: non-overlapping replacement from the left. -/
def stripDoubleEmptyLines : Str → Str
  | a :: b :: c :: r =>
    if a = '\n' ∧ b = '\n' ∧ c = '\n' then '\n' :: '\n' :: stripDoubleEmptyLines r
    else a :: stripDoubleEmptyLines (b :: c :: r)
  | s => s

/-- Is there a double space? (`'  ' in string`) -/
def hasDoubleSpace : Str → Bool
  | a :: b :: r => (a == ' ' && b == ' ') || hasDoubleSpace (b :: r)
  | _ => false

/-- `validate_prog`, `str_utils.py` 45-64: `true` if no exception. -/
def validProg (s : Str) : Bool :=
  !(isBlank s) && s.head? != some ' ' && s.getLast? != some ' ' && !s.contains '\t' &&
  !s.contains '\n' && !hasDoubleSpace s

/-- The operations on `Output`, `output.py` 22-50. -/
inductive OutOp where
  | add (s : Str)
  | extend (ss : List Str)
  /-- a block opened with `add_as_block` and closed: its lines joined by newlines -/
  | block (lines : List Str)

/-- One operation on `self.output`, `output.py` 22-50. -/
def OutOp.apply (out : List Str) : OutOp → List Str
  | .add s => out ++ [s]
  | .extend ss => out ++ ss
  | .block lines => out ++ [joinWith ['\n'] lines]

/-- `Output.get`, `output.py` 80-82: `filter(None, ...)` drops empty strings. -/
def outputGet (out : List Str) : Str := joinWith ['\n', '\n'] (out.filter (fun s => !s.isEmpty))

end CC
