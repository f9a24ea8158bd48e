import Verif.Spec.Ladder
import Verif.Spec.Sphere
import Mathlib.Analysis.Calculus.Deriv.Basic
import Mathlib.Analysis.SpecialFunctions.Trigonometric.Basic

/-!
# The differential operators on functions of spin weight `s` on the sphere

Functions of the angles `theta` and `phi`, away from the poles.
-/

namespace Verif.Spec.SphereOps
open Verif.Spec.Ladder Verif.Spec.Sphere ComplexConjugate

/-- `ð F = -(∂θ F + (i / sin θ) ∂φ F - s cot θ F)`. -/
noncomputable def ethOp (s : Int) (F : ℝ → ℝ → ℂ) : ℝ → ℝ → ℂ := fun θ φ =>
  -(deriv (fun x => F x φ) θ + Complex.I / (Real.sin θ : ℝ) * deriv (fun x => F θ x) φ - s * ((Real.cos θ : ℝ) / (Real.sin θ : ℝ)) * F θ φ)

/-- `ð̄ F = -(∂θ F - (i / sin θ) ∂φ F + s cot θ F)`. -/
noncomputable def ethbarOp (s : Int) (F : ℝ → ℝ → ℂ) : ℝ → ℝ → ℂ := fun θ φ =>
  -(deriv (fun x => F x φ) θ - Complex.I / (Real.sin θ : ℝ) * deriv (fun x => F θ x) φ + s * ((Real.cos θ : ℝ) / (Real.sin θ : ℝ)) * F θ φ)

/-- A sequence of the two, the last one in the list acting first; `s` is the spin weight of `F`. -/
noncomputable def opsOp (s : Int) (F : ℝ → ℝ → ℂ) : List Op → ℝ → ℝ → ℂ
  | [] => F
  | .eth :: ops => ethOp (spinAfter s ops) (opsOp s F ops)
  | .ethbar :: ops => ethbarOp (spinAfter s ops) (opsOp s F ops)

/-- The generators of rotations about the axes x, y, z (0, 1, 2). -/
noncomputable def LOp (i : Fin 3) (s : Int) (F : ℝ → ℝ → ℂ) : ℝ → ℝ → ℂ := fun θ φ =>
  if i = 0 then
    Complex.I * ((Real.sin φ : ℝ) * deriv (fun x => F x φ) θ + (Real.cos θ : ℝ) / (Real.sin θ : ℝ) * (Real.cos φ : ℝ) * deriv (fun x => F θ x) φ) - s * ((Real.cos φ : ℝ) / (Real.sin θ : ℝ)) * F θ φ
  else if i = 1 then
    -Complex.I * ((Real.cos φ : ℝ) * deriv (fun x => F x φ) θ - (Real.cos θ : ℝ) / (Real.sin θ : ℝ) * (Real.sin φ : ℝ) * deriv (fun x => F θ x) φ) - s * ((Real.sin φ : ℝ) / (Real.sin θ : ℝ)) * F θ φ
  else -Complex.I * deriv (fun x => F θ x) φ

/-- `(1/8) [conj(ð̄N) χ ð̄h - conj(ðN) χ ðh + conj(ð̄h) χ ð̄N - conj(ðh) χ ðN + 6 conj(N) χ h + 6 conj(h) χ N]
  - (1/4) [conj(ðN) (ðχ) h + conj(h) (ð̄χ) ðN] - (u/2) conj(N) χ N` for functions `h` and `N` of spin weight -2, with the component `i` of the
unit vector as `χ` (Flanagan and Nichols, arXiv:1510.03386, equation (C.1), as quoted by the documentation of `boost_flux`). -/
noncomputable def boostIntegrand (i : Fin 3) (u : ℝ) (h N : ℝ → ℝ → ℂ) (θ φ : ℝ) : ℂ :=
  let χ : ℝ → ℝ → ℂ := fun θ φ => (nHat i θ φ : ℝ)
  1 / 8 * (conj (ethbarOp (-2) N θ φ) * χ θ φ * ethbarOp (-2) h θ φ - conj (ethOp (-2) N θ φ) * χ θ φ * ethOp (-2) h θ φ
      + conj (ethbarOp (-2) h θ φ) * χ θ φ * ethbarOp (-2) N θ φ - conj (ethOp (-2) h θ φ) * χ θ φ * ethOp (-2) N θ φ
      + 6 * (conj (N θ φ) * χ θ φ * h θ φ) + 6 * (conj (h θ φ) * χ θ φ * N θ φ))
    - 1 / 4 * (conj (ethOp (-2) N θ φ) * ethOp 0 χ θ φ * h θ φ + conj (h θ φ) * ethbarOp 0 χ θ φ * ethOp (-2) N θ φ)
    - u / 2 * (conj (N θ φ) * χ θ φ * N θ φ)

end Verif.Spec.SphereOps
