import Verif.Model.GridMultiply
import Mathlib.MeasureTheory.Integral.IntervalIntegral.Basic
import Mathlib.Order.Interval.Finset.Basic
import Mathlib.Data.Int.Interval

/-!
# Functions on the sphere and their integrals

The harmonic of spin weight `s` at the angles `theta`, `phi` is its value at the rotor `exp(phi z / 2) exp(theta y / 2)`.
-/

namespace Verif.Spec.Sphere

open Verif.GridMultiply

/-- `∫ F dΩ = ∫∫ F(θ, φ) sin θ dφ dθ`. -/
noncomputable def solid (F : ℝ → ℝ → ℂ) : ℂ := ∫ θ in (0 : ℝ)..Real.pi, ∫ φ in (0 : ℝ)..(2 * Real.pi), F θ φ * Real.sin θ

/-- The function of spin weight `s` with the modes `f`, from `ell = a` to `ell = b`. -/
noncomputable def field (s a b : Int) (f : Int → Int → ℂ) (θ φ : ℝ) : ℂ :=
  ∑ ell ∈ Finset.Icc a b, ∑ m ∈ Finset.Icc (-ell) ell, f ell m * Y s ell m (rotor θ φ)

/-- The unit vector. -/
noncomputable def nHat (i : Fin 3) (θ φ : ℝ) : ℝ :=
  if i = 0 then Real.sin θ * Real.cos φ else if i = 1 then Real.sin θ * Real.sin φ else Real.cos θ

end Verif.Spec.Sphere
