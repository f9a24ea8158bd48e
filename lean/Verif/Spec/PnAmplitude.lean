import Mathlib.Analysis.SpecialFunctions.Pow.Real
import Mathlib.Analysis.Complex.Basic
import Mathlib.Analysis.SpecialFunctions.Trigonometric.Basic

/-!
# Specification: leading terms of the modes of a nonprecessing binary

Blanchet, Living Rev. Relativity 17, 2 (2014), Eqs. (327)-(328): `r h_lm / M = 2 ν x sqrt(16π/5) H_lm` (up to the phase), and the leading terms of `H_lm`, as functions of the two masses with `m1 >= m2`.
-/

namespace Verif.Spec.PnAmplitude

/-- `ν = m1 m2 / (m1 + m2)^2`. -/
noncomputable def nu (m1 m2 : ℝ) : ℝ := m1 * m2 / (m1 + m2) ^ 2

/-- `Δ = (m1 - m2) / (m1 + m2)`. -/
noncomputable def delta (m1 m2 : ℝ) : ℝ := (m1 - m2) / (m1 + m2)

/-- The factor in front of `H_lm`. -/
noncomputable def front (m1 m2 x : ℝ) : ℝ := 2 * nu m1 m2 * x * √(16 * Real.pi / 5)

end Verif.Spec.PnAmplitude
