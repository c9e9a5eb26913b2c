import Lean.Elab.Tactic.Basic
/-!
# Equations that hold by computation, checked by the kernel alone

`kernel_rfl` proves `a = b` by `Eq.refl a`, as `rfl` does, but leaves the comparison of `a` and `b` to the kernel.
-/

open Lean Elab Tactic Meta in
/-- `Eq.refl`, checked by the kernel. -/
elab "kernel_rfl" : tactic => do
  let g ← getMainGoal
  let t ← instantiateMVars (← g.getType)
  match t.eq? with
  | some (α, a, _) =>
    let u ← getLevel α
    g.assign (mkApp2 (mkConst ``Eq.refl [u]) α a)
  | none => throwError "not an equation"
