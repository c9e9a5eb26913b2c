import Verif.Model.Py
/-!
# Glob patterns: what they match and how a shell reads them

`Glob` is the abstract syntax, `Glob.Lang` its meaning: the set of words it matches. `readGlob` reads
the text of a pattern. It is a fold of `gstep` over the characters. It fails (`none`) on text that the
shell would not read as a pattern, and on text it does not describe. The context says what that is:
`caseCtx` is the pattern list of a Bash `case` command with `extglob` switched on, where expansions,
blanks, comments and tildes are not described. Ranges in brackets follow the code points (the C locale).
The reserved word `esac` is not described.
-/

namespace CC

/-- One element of a pattern. `ext` is an extended glob: its kind (one of `@ * ? + !`) and its
alternatives. -/
inductive Glob where
  | lit (c : Char)
  | any
  | star
  | cls (negated : Bool) (ranges : List (Char × Char))
  | ext (kind : Char) (alts : List (List Glob))

/-- Zero or more words of a language, one after the other. -/
inductive Repeat (L : Str → Prop) : Str → Prop where
  | nil : Repeat L []
  | cons {a b : Str} : L a → Repeat L b → Repeat L (a ++ b)

/-- The character is in one of the ranges. -/
def inRanges (rs : List (Char × Char)) (c : Char) : Prop := ∃ r ∈ rs, r.1.toNat ≤ c.toNat ∧ c.toNat ≤ r.2.toNat

mutual
/-- The words an element matches. -/
def Glob.Lang : Glob → Str → Prop
  | .lit c, w => w = [c]
  | .any, w => ∃ c, w = [c]
  | .star, _ => True
  | .cls neg rs, w => ∃ c, w = [c] ∧ (if neg then ¬ inRanges rs c else inRanges rs c)
  | .ext k alts, w =>
    if k = '@' then Glob.AltLang alts w
    else if k = '?' then w = [] ∨ Glob.AltLang alts w
    else if k = '*' then Repeat (Glob.AltLang alts) w
    else if k = '+' then ∃ a b, w = a ++ b ∧ Glob.AltLang alts a ∧ Repeat (Glob.AltLang alts) b
    else ¬ Glob.AltLang alts w
/-- The words a sequence of elements matches. -/
def Glob.SeqLang : List Glob → Str → Prop
  | [], w => w = []
  | g :: gs, w => ∃ a b, w = a ++ b ∧ g.Lang a ∧ Glob.SeqLang gs b
/-- The words one of several sequences matches. -/
def Glob.AltLang : List (List Glob) → Str → Prop
  | [], _ => False
  | g :: gs, w => Glob.SeqLang g w ∨ Glob.AltLang gs w
end

/-- An extended glob that is still open: its kind, what surrounds it. -/
structure GFrame where
  kind : Char
  alts : List (List Glob)
  cur : List Glob

/-- What the reader is in the middle of. `pend k`: one of `@ * ? + !` was read and the next character
decides. In brackets, each character is kept with a flag telling whether it was quoted. -/
inductive GMode where
  | plain
  | pend (k : Char)
  | esc | sq | dq | dqEsc
  | clsOpen
  | cls (neg : Bool) (acc : List (Char × Bool))
  | clsEsc (neg : Bool) (acc : List (Char × Bool))
  | clsSq (neg : Bool) (acc : List (Char × Bool))
  | clsDq (neg : Bool) (acc : List (Char × Bool))

/-- The state of the reader: open extended globs (innermost first), the finished alternatives and the
current one. -/
structure GState where
  frames : List GFrame := []
  alts : List (List Glob) := []
  cur : List Glob := []
  mode : GMode := .plain

/-- How patterns are written in some place: whether `@( )` and the like are extended globs, whether
plain parentheses group, and which unquoted characters are not read as pattern text outside of and in
brackets. -/
structure GlobCtx where
  ext : Bool
  paren : Bool
  special : Char → Bool
  clsSpecial : Char → Bool

/-- The pattern list of a Bash `case` command, with `extglob`. -/
def caseCtx : GlobCtx where
  ext := true
  paren := false
  special c := (S " \t\n$`&;<>#~").contains c
  clsSpecial c := (S " \t\n$`&;<>#~|()[").contains c

/-- One of `@ * ? + !` that is not followed by a parenthesis. -/
def pendGlob (k : Char) : Glob := if k = '*' then .star else if k = '?' then .any else .lit k

/-- The ranges given by the characters in brackets. -/
def clsRanges : List (Char × Bool) → List (Char × Char)
  | (a, _) :: (m, q) :: (b, qb) :: r =>
    if m = '-' ∧ q = false then (a, b) :: clsRanges r else (a, a) :: clsRanges ((m, q) :: (b, qb) :: r)
  | (a, _) :: r => (a, a) :: clsRanges r
  | [] => []

/-- Finish a pending character. -/
def GState.flush (st : GState) : GState := match st.mode with
  | .pend k => { st with cur := st.cur ++ [pendGlob k], mode := .plain }
  | _ => st

/-- Read an unquoted character outside of brackets. -/
def gplain (x : GlobCtx) (st : GState) (c : Char) : Option GState :=
  if c = '\\' then some { st with mode := .esc }
  else if c = '\'' then some { st with mode := .sq }
  else if c = '"' then some { st with mode := .dq }
  else if c = '[' then some { st with mode := .clsOpen }
  else if c = '@' ∨ c = '*' ∨ c = '?' ∨ c = '+' ∨ c = '!' then some { st with mode := .pend c }
  else if c = '|' then some { st with alts := st.alts ++ [st.cur], cur := [] }
  else if c = ')' then match st.frames with
    | [] => none
    | f :: fs => some { frames := fs, alts := f.alts, cur := f.cur ++ [.ext f.kind (st.alts ++ [st.cur])], mode := .plain }
  else if c = '(' then
    if x.paren then some { frames := ⟨'@', st.alts, st.cur⟩ :: st.frames, alts := [], cur := [], mode := .plain }
    else none
  else if x.special c then none
  else some { st with cur := st.cur ++ [.lit c] }

/-- Read a character in brackets. -/
def gcls (x : GlobCtx) (st : GState) (neg : Bool) (acc : List (Char × Bool)) (c : Char) : Option GState :=
  if c = ']' ∧ acc ≠ [] then some { st with cur := st.cur ++ [.cls neg (clsRanges acc)], mode := .plain }
  else if c = '\\' then some { st with mode := .clsEsc neg acc }
  else if c = '\'' then some { st with mode := .clsSq neg acc }
  else if c = '"' then some { st with mode := .clsDq neg acc }
  else if x.clsSpecial c then none
  else some { st with mode := .cls neg (acc ++ [(c, false)]) }

/-- Read one character. -/
def gstep (x : GlobCtx) (st : GState) (c : Char) : Option GState := match st.mode with
  | .plain => gplain x st c
  | .pend k =>
    if c = '(' ∧ x.ext = true then some { frames := ⟨k, st.alts, st.cur⟩ :: st.frames, alts := [], cur := [], mode := .plain }
    else gplain x st.flush c
  | .esc => some { st with cur := st.cur ++ [.lit c], mode := .plain }
  | .sq => if c = '\'' then some { st with mode := .plain } else some { st with cur := st.cur ++ [.lit c] }
  | .dq =>
    if c = '"' then some { st with mode := .plain }
    else if c = '\\' then some { st with mode := .dqEsc }
    else if c = '$' ∨ c = '`' then none
    else some { st with cur := st.cur ++ [.lit c] }
  | .dqEsc =>
    if c = '$' ∨ c = '`' ∨ c = '"' ∨ c = '\\' then some { st with cur := st.cur ++ [.lit c], mode := .dq }
    else if c = '\n' then some { st with mode := .dq }
    else some { st with cur := st.cur ++ [.lit '\\', .lit c], mode := .dq }
  | .clsOpen => if c = '!' ∨ c = '^' then some { st with mode := .cls true [] } else gcls x st false [] c
  | .cls neg acc => gcls x st neg acc c
  | .clsEsc neg acc => some { st with mode := .cls neg (acc ++ [(c, true)]) }
  | .clsSq neg acc =>
    if c = '\'' then some { st with mode := .cls neg acc } else some { st with mode := .clsSq neg (acc ++ [(c, true)]) }
  | .clsDq neg acc =>
    if c = '"' then some { st with mode := .cls neg acc }
    else if c = '$' ∨ c = '`' ∨ c = '\\' then none
    else some { st with mode := .clsDq neg (acc ++ [(c, true)]) }

/-- Read a text from a state. -/
def gread (x : GlobCtx) (st : GState) (t : Str) : Option GState := t.foldlM (gstep x) st

/-- The alternatives of a pattern list such as `a|b`. The text must not be empty,
all quotes, brackets and parentheses must be closed. -/
def readGlob (x : GlobCtx) (t : Str) : Option (List (List Glob)) :=
  if t = [] then none
  else match gread x {} t with
    | none => none
    | some st => match st.flush.mode, st.frames with
      | .plain, [] => some (st.flush.alts ++ [st.flush.cur])
      | _, _ => none

end CC
