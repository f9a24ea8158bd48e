import Verif.Model.InitialValues

/-!
# Specification: Bondi data
-/

namespace Verif.Spec.InitialValues

open Verif.InitialValues

variable {M : Type*} [NormedAddCommGroup M] [NormedSpace ℂ M]

/-- The equations of Bondi gauge at all times: `ψ̇₀ = ðψ₁ + 3σψ₂`, `ψ̇₁ = ðψ₂ + 2σψ₃`, `ψ̇₂ = ðψ₃ + σψ₄`, `ψ₃ = -ð∂σ̄/∂u`, `ψ₄ = -∂²σ̄/∂u²`, and the mass aspect `ψ₂ + ð²σ̄ + σ∂σ̄/∂u` is real. -/
structure Bondi (A : Sphere M) (d : ABD M) : Prop where
  d0 : ∀ u, HasDerivAt d.psi0 (A.eth (d.psi1 u) + (3 : ℝ) • A.mul (d.sigma u) (d.psi2 u)) u
  d1 : ∀ u, HasDerivAt d.psi1 (A.eth (d.psi2 u) + (2 : ℝ) • A.mul (d.sigma u) (d.psi3 u)) u
  d2 : ∀ u, HasDerivAt d.psi2 (A.eth (d.psi3 u) + A.mul (d.sigma u) (d.psi4 u)) u
  news : ∃ s1 s2 : ℝ → M, (∀ u, HasDerivAt d.sigma (s1 u) u) ∧ (∀ u, HasDerivAt s1 (s2 u) u) ∧ (∀ u, d.psi3 u = -(A.eth (A.bar (s1 u)))) ∧ (∀ u, d.psi4 u = -(A.bar (s2 u))) ∧
    ∀ u, A.bar (d.psi2 u + A.eth (A.eth (A.bar (d.sigma u))) + A.mul (d.sigma u) (A.bar (s1 u))) = d.psi2 u + A.eth (A.eth (A.bar (d.sigma u))) + A.mul (d.sigma u) (A.bar (s1 u))

end Verif.Spec.InitialValues
