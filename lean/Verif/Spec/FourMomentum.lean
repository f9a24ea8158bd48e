import Verif.Spec.Sphere
import Verif.Spec.Charges
import Verif.Model.AbdTransform

/-!
# The four-momentum of a mass aspect, and its components in a boosted frame
-/

namespace Verif.Spec.FourMomentum
open Verif.Spec.Sphere Verif.Spec.Charges Verif.AbdTransform

/-- `-(1/4π) ∫ Re M (1, r) dΩ`. -/
noncomputable def momentum (M : ℝ → ℝ → ℂ) (b : Fin 4) : ℝ := (-(1 / (4 * Real.pi) : ℝ) * solid fun θ φ => M θ φ * (n θ φ b : ℝ)).re

/-- The components `(t, x, y, z)` of a vector in the frame that moves with the velocity `beta` along the `z` axis. -/
noncomputable def seen (beta : ℝ) (v : Fin 4 → ℝ) : Fin 4 → ℝ := ![gamma beta * (v 0 - beta * v 3), v 1, v 2, gamma beta * (v 3 - beta * v 0)]

/-- The square of a vector. -/
noncomputable def square (v : Fin 4 → ℝ) : ℝ := v 0 ^ 2 - v 1 ^ 2 - v 2 ^ 2 - v 3 ^ 2

end Verif.Spec.FourMomentum
