import Verif.Spec.BashExec
import Verif.Spec.BashCompleterSpec
import Verif.Model.Choices
/-!
# Combining completers in Bash (specification)
-/

namespace BashCompleter
open BashCode BashExec CC

/-- The commands behave as their documentation and their source say: all but the helper function `prefix` keep
some of the earlier results and add their own; the helper function `values` is that of `Model/Choices.lean`. -/
structure Sound (env : Env) (pre : Str) : Prop where
  ordinary : ∀ ws : List Str, ws.head? ≠ some (pre ++ "__prefix".toList) → Ordinary env ws
  values : ∃ q : Str → Str, ∀ args v r, env.call ((pre ++ "__values".toList) :: args) v r = bashValues q v.cur r args

/-- Completers that replace the earlier results. -/
def Overwrites : Comp → Prop
  | .choices _ => True
  | .range _ _ _ => True
  | .command none none none => True
  | .void n => n ∈ actions.map (fun e => e.1.toList)
  | _ => False

mutual
/-- Completers that can be combined: no own code, no change of `PATH`, no `prefix`, and lists only of
completers that replace earlier results. -/
def Mixes : Comp → Prop
  | .command p a b => p = none ∧ a = none ∧ b = none
  | .execInternal _ => False
  | .prefix _ _ => False
  | .directoryList _ _ => False
  | .fileList _ _ => False
  | .list c _ => Overwrites c
  | .combine cs => MixesAll cs
  | _ => True
/-- All completers of a combination. -/
def MixesAll : Comps → Prop
  | .nil => True
  | .cons c r => Mixes c ∧ MixesAll r
end

end BashCompleter
