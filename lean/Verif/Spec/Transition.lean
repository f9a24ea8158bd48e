import Mathlib.Analysis.SpecialFunctions.Exp

/-!
# Specification of the transition function

The standard smooth step from `y0` to `y1` over the interval from `x0` to `x1`.
-/

namespace Verif.Spec.Transition

/-- The smooth step. -/
noncomputable def step (x0 x1 y0 y1 x : ℝ) : ℝ :=
  if x ≤ x0 then y0 else if x < x1 then
    y0 + (y1 - y0) / (1 + Real.exp ((x1 - x0) / (x - x0) - (x1 - x0) / (x1 - x)))
  else y1

end Verif.Spec.Transition
