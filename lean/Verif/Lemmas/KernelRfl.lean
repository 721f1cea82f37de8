import Lean.Elab.Tactic.Basic

/-! Proof by evaluation, for goals with free variables (where `decide +kernel` is not available). -/

namespace Verif
open Lean Elab Tactic Meta

/-- Closes `a = b` by `rfl`, leaving it to the kernel to check that both sides are the same. -/
elab "kernel_rfl" : tactic => do
  let g ← getMainGoal
  let t ← instantiateMVars (← whnfR (← g.getType))
  match t.eq? with
  | some (α, a, _) =>
    let u ← getLevel α
    g.assign (mkApp2 (.const ``Eq.refl [u]) α a)
  | none => throwError "kernel_rfl: not an equation"

end Verif
