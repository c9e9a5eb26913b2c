import Verif.Model.Py
/-!
# Option strings: `str_utils.py` 141-156 and `cli.py` 587-599
-/

namespace CC

/-- `is_valid_option_string`, `str_utils.py` 11 and 141-150: full match of `-[^\s,]+`, and not `--`. -/
def isValidOptionString : Str → Bool
  | '-' :: c :: cs => (c :: cs).all (fun x => !pyIsSpace x && x != ',') && !(c == '-' && cs.isEmpty)
  | _ => false

/-- `is_short_option_string`, `cli.py` 587-589. -/
def isShortOptionString (s : Str) : Bool := s.length == 2

/-- `is_long_option_string`, `cli.py` 592-594. -/
def isLongOptionString (s : Str) : Bool := startsWith s ['-', '-']

/-- `is_old_option_string`, `cli.py` 597-599. -/
def isOldOptionString (s : Str) : Bool := !startsWith s ['-', '-'] && s.length > 2

/-- `is_valid_variable_name`, `str_utils.py` 12 and 153-156. -/
def isValidVariableName : Str → Bool
  | [] => false
  | c :: cs => (c.isAlpha || c == '_') && cs.all (fun d => d.isAlphanum || d == '_')

end CC
