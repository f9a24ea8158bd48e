import Mathlib.Data.Complex.Basic
import Mathlib.Analysis.SpecialFunctions.Integrals.Basic

/-!
# Specification: functions on the sphere with `ell <= 1`, and integrals over the sphere
-/

namespace Verif.Spec.Charges

open Real

/-- The direction with polar angle `θ` and azimuth `φ`, as the null vector `(1, r)`. -/
noncomputable def n (θ φ : ℝ) : Fin 4 → ℝ := ![1, sin θ * cos φ, sin θ * sin φ, cos θ]

/-- The spherical harmonics with `ell <= 1`. -/
noncomputable def Y00 (_ _ : ℝ) : ℂ := (1 / √(4 * π) : ℝ)
noncomputable def Y1m (θ φ : ℝ) : ℂ := (√(3 / (8 * π)) * sin θ : ℝ) * ⟨cos φ, -sin φ⟩
noncomputable def Y10 (θ _ : ℝ) : ℂ := (√(3 / (4 * π)) * cos θ : ℝ)
noncomputable def Y11 (θ φ : ℝ) : ℂ := -((√(3 / (8 * π)) * sin θ : ℝ) * ⟨cos φ, sin φ⟩)

/-- The function with the given mode weights. -/
noncomputable def eval (f : Int → Int → ℂ) (θ φ : ℝ) : ℂ := f 0 0 * Y00 θ φ + f 1 (-1) * Y1m θ φ + f 1 0 * Y10 θ φ + f 1 1 * Y11 θ φ

/-- The integral over the sphere. -/
noncomputable def sphere (g : ℝ → ℝ → ℝ) : ℝ := ∫ θ in (0 : ℝ)..π, ∫ φ in (0 : ℝ)..(2 * π), g θ φ * sin θ

/-- The four-vector of an aspect: `(1/4π) ∫ Re a (1, r) dΩ`. -/
noncomputable def vector (f : Int → Int → ℂ) (b : Fin 4) : ℝ := 1 / (4 * π) * sphere fun θ φ => (eval f θ φ).re * n θ φ b

end Verif.Spec.Charges
