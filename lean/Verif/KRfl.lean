import Lean.Elab.Tactic.Basic

/-!
`krfl` closes `a = b` with `Eq.refl`, which only the kernel checks: both sides must be equal by computation.  It differs
from `rfl` in that the elaborator does not try to compute as well, and from `decide +kernel` in that the goal may contain
variables.
-/
open Lean Elab Tactic in
elab "krfl" : tactic => do
  let g ← getMainGoal
  let t ← instantiateMVars (← g.getType)
  match t.eq? with
  | some (α, a, _) =>
    let u ← Lean.Meta.getLevel α
    g.assign (mkApp2 (mkConst ``Eq.refl [u]) α a)
  | none => throwError "not an equation"
