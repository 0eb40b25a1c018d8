import Lean.Elab.Tactic.Basic

/-!
# `krfl`: equality by evaluation in the kernel

Closes `a = b` with `Eq.refl a`. The elaborator does not try to see that both sides agree; the
kernel does that when it checks the declaration.
-/

open Lean Meta Elab Tactic in
elab "krfl" : tactic => do
  let g ← getMainGoal
  let t ← instantiateMVars (← g.getType)
  let some (_, a, _) := t.eq? | throwError "krfl: not an equation"
  g.assign (← mkEqRefl a)
