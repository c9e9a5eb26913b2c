import Verif.Model.Value
/-!
# Model of `crazy_complete/compat.py`

The Python functions change the dictionaries in place; the model returns the changed value
(simplification: two references to one dictionary object are not modelled; the loaders never
produce them). Warnings are not modelled.
-/

namespace CC

/-- `fix_option_dictionary`, `compat.py` 11-26. -/
def fixOption : Val → Val
  | .dict d =>
    match getKey d (S "group") with
    | none => .dict d
    | some g =>
      if hasKey d (S "groups") then .dict (delKey d (S "group"))
      else .dict (setKey (delKey d (S "group")) (.str (S "groups")) (.list [g]))
  | v => v

/-- `fix_commandline_dictionary`, `compat.py` 29-39. -/
def fixCommandline : Val → Val
  | .dict d =>
    match getKey d (S "options") with
    | some (.list os) => .dict (setKey d (.str (S "options")) (.list (os.map fixOption)))
    | _ => .dict d
  | v => v

/-- `fix_commandline_dictionaries`, `compat.py` 42-49. -/
def fixCommandlines : Val → Val
  | .list l => .list (l.map fixCommandline)
  | v => v

end CC
