import Verif.Model.Py
/-!
# Model of `range_to_complete` (`crazy_complete/argparse_source.py`) and of the range validation
-/

namespace CC

/-- The arguments of a `range` completer. -/
structure RangeArgs where
  start : Int
  stop : Int
  /-- `none` is the default step 1 -/
  step : Option Int
  deriving DecidableEq

/-- `range_to_complete`, `argparse_source.py` 22-32, for `range(start, stop, step)`. -/
def rangeToComplete (start stop step : Int) : RangeArgs :=
  let e := if step > 0 then stop - 1 else stop + 1
  if step = 1 then ⟨start, e, none⟩ else ⟨start, e, some step⟩

/-- `_check_range`, `scheme_validator.py` 319-341, the numeric tests. -/
def checkRange (r : RangeArgs) : Bool :=
  let step := r.step.getD 1
  if step = 0 then false
  else if step > 0 ∧ r.start > r.stop then false
  else if step < 0 ∧ r.stop > r.start then false
  else true

end CC
