import Verif.Spec.Glob
/-!
# Regular expressions: what they match and how Fish (PCRE) reads them

Only what the generated expressions need: characters, escaped punctuation, `.`, bracket expressions,
groups, alternatives and the quantifiers `* + ?`. The reader fails (`none`) on everything else: anchors,
counted quantifiers, escapes of letters and digits, lazy or possessive quantifiers, special groups, and
ranges that PCRE rejects. The language of an expression is that of a match of the whole word.
-/

namespace CC

/-- Abstract syntax. `rep` is a quantified element: one of `* + ?`. -/
inductive Rx where
  | chr (c : Char)
  | dot
  | cls (negated : Bool) (ranges : List (Char × Char))
  | rep (q : Char) (r : Rx)
  | grp (alts : List (List Rx))

mutual
/-- The words an element matches. A dot does not match a newline. -/
def Rx.Lang : Rx → Str → Prop
  | .chr c, w => w = [c]
  | .dot, w => ∃ c, w = [c] ∧ c ≠ '\n'
  | .cls neg rs, w => ∃ c, w = [c] ∧ (if neg then ¬ inRanges rs c else inRanges rs c)
  | .rep q r, w =>
    if q = '*' then Repeat r.Lang w
    else if q = '+' then ∃ a b, w = a ++ b ∧ r.Lang a ∧ Repeat r.Lang b
    else w = [] ∨ r.Lang w
  | .grp alts, w => Rx.AltLang alts w
/-- The words a sequence matches. -/
def Rx.SeqLang : List Rx → Str → Prop
  | [], w => w = []
  | g :: gs, w => ∃ a b, w = a ++ b ∧ g.Lang a ∧ Rx.SeqLang gs b
/-- The words one of several sequences matches. -/
def Rx.AltLang : List (List Rx) → Str → Prop
  | [], _ => False
  | g :: gs, w => Rx.SeqLang g w ∨ Rx.AltLang gs w
end

/-- What the reader is in the middle of. -/
inductive RMode where
  | plain | esc | clsOpen
  | cls (neg : Bool) (acc : List (Char × Bool))
  | clsEsc (neg : Bool) (acc : List (Char × Bool))

/-- The state of the reader: the surroundings of the open groups, the finished alternatives and the
current one. -/
structure RState where
  frames : List (List (List Rx) × List Rx) := []
  alts : List (List Rx) := []
  cur : List Rx := []
  mode : RMode := .plain

/-- Apply a quantifier to the last element, which must not have one. -/
def quantify (q : Char) (cur : List Rx) : Option (List Rx) := match cur.getLast? with
  | none => none
  | some (.rep _ _) => none
  | some r => some (cur.dropLast ++ [.rep q r])

/-- Read a character outside of brackets. -/
def rplain (st : RState) (c : Char) : Option RState :=
  if c = '\\' then some { st with mode := .esc }
  else if c = '[' then some { st with mode := .clsOpen }
  else if c = '(' then some { frames := (st.alts, st.cur) :: st.frames, alts := [], cur := [], mode := .plain }
  else if c = ')' then match st.frames with
    | [] => none
    | f :: fs => some { frames := fs, alts := f.1, cur := f.2 ++ [.grp (st.alts ++ [st.cur])], mode := .plain }
  else if c = '|' then some { st with alts := st.alts ++ [st.cur], cur := [] }
  else if c = '*' ∨ c = '+' ∨ c = '?' then (quantify c st.cur).map (fun cur => { st with cur := cur })
  else if c = '.' then some { st with cur := st.cur ++ [.dot] }
  else if c = '^' ∨ c = '$' ∨ c = '{' ∨ c = '}' then none
  else some { st with cur := st.cur ++ [.chr c] }

/-- Read a character in brackets. -/
def rcls (st : RState) (neg : Bool) (acc : List (Char × Bool)) (c : Char) : Option RState :=
  if c = ']' ∧ acc ≠ [] then
    if (clsRanges acc).all (fun r => decide (r.1.toNat ≤ r.2.toNat)) then
      some { st with cur := st.cur ++ [.cls neg (clsRanges acc)], mode := .plain }
    else none
  else if c = '\\' then some { st with mode := .clsEsc neg acc }
  else if c = '[' then none
  else some { st with mode := .cls neg (acc ++ [(c, false)]) }

/-- Read one character. -/
def rstep (st : RState) (c : Char) : Option RState := match st.mode with
  | .plain => rplain st c
  | .esc => if c.isAlphanum then none else some { st with cur := st.cur ++ [.chr c], mode := .plain }
  | .clsOpen => if c = '^' then some { st with mode := .cls true [] } else rcls st false [] c
  | .cls neg acc => rcls st neg acc c
  | .clsEsc neg acc => if c.isAlphanum then none else some { st with mode := .cls neg (acc ++ [(c, true)]) }

/-- Read a text from a state. -/
def rread (st : RState) (t : Str) : Option RState := t.foldlM rstep st

/-- The alternatives of a regular expression. -/
def readRegex (t : Str) : Option (List (List Rx)) := match rread {} t with
  | none => none
  | some st => match st.mode, st.frames with
    | .plain, [] => some (st.alts ++ [st.cur])
    | _, _ => none

end CC
