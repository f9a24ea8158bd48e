import Mathlib.MeasureTheory.Integral.IntervalIntegral.Basic
import Verif.Model.ComMotion

/-!
# Specification of the fit of a motion
-/

namespace Verif.Spec.ComMotion

open Verif.ComMotion

/-- The squared distance from `x + v t + a t² / 2`, integrated over the window. -/
noncomputable def misfit (com : ℝ → ℝ) (t_i t_f x v a : ℝ) : ℝ := ∫ t in t_i..t_f, (com t - (x + v * t + a * t ^ 2 / 2)) ^ 2

/-- The same with Simpson's rule on samples (times and places), without acceleration. -/
noncomputable def sampledMisfit (samples : List (ℝ × ℝ)) (x v : ℝ) : ℝ := simps (samples.map fun p => (p.1, (p.2 - (x + v * p.1)) ^ 2))

/-- The window ends at samples, and the number of samples in it is odd. -/
def Aligned (t : List ℝ) (skipB skipE : ℝ) (i j : Nat) : Prop :=
  t[i]? = some (windowTimes t skipB skipE).1 ∧ t[j]? = some (windowTimes t skipB skipE).2 ∧ i < j ∧ (j - i) % 2 = 0

end Verif.Spec.ComMotion
