import Verif.Model.AbdTransform
import Mathlib.Analysis.SpecialFunctions.Pow.Deriv

/-!
# Specification: a precessing binary
-/

namespace Verif.Spec.Precessing

/-- The direction that makes the angle `o` with the `z` axis; its projection on the `x`-`y` plane is 90 degrees behind the azimuth `p`. -/
noncomputable def cone (o p : ℝ) : Fin 3 → ℝ := ![Real.sin o * Real.sin p, -(Real.sin o * Real.cos p), Real.cos o]

/-- The `z` axis of the frame `R`. -/
noncomputable def zAxis (R : Quaternion ℝ) : Fin 3 → ℝ := Verif.AbdTransform.rotateVec R ![0, 0, 1]

/-- The leading order of post-Newtonian theory for the orbital frequency of a binary with total mass 1 and symmetric mass ratio `nu`. -/
def Chirp (nu : ℝ) (freq : ℝ → ℝ) (u : ℝ) : Prop := HasDerivAt freq (96 / 5 * nu * freq u ^ ((11 : ℝ) / 3)) u

end Verif.Spec.Precessing
