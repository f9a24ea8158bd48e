import Verif.Spec.Balance
import Verif.Spec.Boost

/-!
# Specification: supertranslations of Bondi data without radiation
-/

namespace Verif.Spec.Supertranslation
open Verif.GridMultiply Verif.Spec.Sphere Verif.Spec.Boost Verif.Charges ComplexConjugate

/-- No radiation: the shear does not depend on time, and with `ψ₃ = ψ₄ = 0` the function `ψ₂ + ð²σ̄` is real (modes up to `b`). -/
structure Nonradiative (b : Int) (d : Abd) : Prop where
  news : ∀ ell m, d.sigmaDot ell m = 0
  real : ∀ ell m, 0 ≤ ell → ell ≤ b → |m| ≤ ell →
    let M : Modes := fun ell m => d.psi2 ell m + ethGHP (-1) (ethGHP (-2) (bar 2 d.sigma)) ell m
    bar 0 M ell m = M ell m

/-- The real function `α` with the time translation `τ`, the space translation `a` (that is, `α = τ + a·n + ...`) and any modes `2 <= ell <= b`. -/
structure IsReal (b : Int) (α : Modes) (τ : ℝ) (a : Fin 3 → ℝ) : Prop where
  real : ∀ ell m, 0 ≤ ell → ell ≤ b → |m| ≤ ell → bar 0 α ell m = α ell m
  time : α 0 0 = (τ * √(4 * Real.pi) : ℝ)
  space : ∀ m, |m| ≤ 1 → α 1 m = ∑ j, (a j : ℂ) * chi j 1 m

/-- `ψ₁` at the retarded time `u`, if it is that of `d` at the time of `d` and `ψ̇₁ = ðψ₂`. -/
noncomputable def psi1At (b : Int) (d : Abd) (u : ℝ) (θ φ : ℝ) : ℂ := field 1 0 b d.psi1 θ φ + ((u - d.t : ℝ) : ℂ) * field 1 0 b (ethGHP 0 d.psi2) θ φ

/-- `d'` are the data in the frame with the retarded time `u' = u - α`, at one time `u'`: `σ' = σ - ð²α`, `ψ₂' = ψ₂` and `ψ₁' = ψ₁ + 3 ðα ψ₂`, at the time `u' + α(θ, φ)`. -/
structure Supertranslated (b : Int) (α : Modes) (d d' : Abd) : Prop where
  news : ∀ ell m, d'.sigmaDot ell m = 0
  sigma : ∀ ell m, 2 ≤ ell → ell ≤ b → |m| ≤ ell → d'.sigma ell m = d.sigma ell m - ethGHP 1 (ethGHP 0 α) ell m
  psi2 : ∀ ell m, 0 ≤ ell → ell ≤ b → |m| ≤ ell → d'.psi2 ell m = d.psi2 ell m
  psi1 : ∀ m, |m| ≤ 1 → d'.psi1 1 m = solid fun θ φ => conj (Y 1 1 m (rotor θ φ)) *
    (psi1At b d (d'.t + (field 0 0 b α θ φ).re) θ φ + 3 * field 1 0 b (ethGHP 0 α) θ φ * field 0 0 b d.psi2 θ φ)

/-- The cross product. -/
def cross (a p : Fin 3 → ℝ) : Fin 3 → ℝ := ![a 1 * p 2 - a 2 * p 1, a 2 * p 0 - a 0 * p 2, a 0 * p 1 - a 1 * p 0]

end Verif.Spec.Supertranslation
