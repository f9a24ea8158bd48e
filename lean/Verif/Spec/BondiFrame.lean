import Verif.Model.AbdTransform
import Verif.Spec.SphereOps
import Mathlib.Analysis.Calculus.ContDiff.Defs

/-!
# Bondi data as functions of time and direction, and what a boost and a supertranslation make of them

The polar axis is the direction of the boost; the angles are `0 < θ < π` and `φ`.
-/

namespace Verif.Spec.BondiFrame
open Verif.AbdTransform Verif.Spec.SphereOps ComplexConjugate
open scoped ContDiff

/-- A function of `u`, `θ` and `φ`. -/
abbrev Field := ℝ → ℝ → ℝ → ℂ

/-- `∂/∂u`. -/
noncomputable def dt (f : Field) : Field := fun u θ φ => deriv (fun x => f x θ φ) u

/-- `ð` on functions of spin weight `s`, with the factor `1/√2` of Geroch, Held and Penrose. -/
noncomputable def eth (s : Int) (f : Field) : Field := fun u θ φ => ethOp s (f u) θ φ / (√2 : ℝ)

def bar (f : Field) : Field := fun u θ φ => conj (f u θ φ)

/-- All derivatives exist. -/
def Smooth (f : Field) : Prop := ∀ u θ φ, 0 < θ → θ < Real.pi → ContDiffAt ℝ ∞ (fun p : ℝ × ℝ × ℝ => f p.1 p.2.1 p.2.2) (u, θ, φ)

/-- The mass aspect `ψ₂ + σ ∂σ̄/∂u + ð²σ̄`. -/
noncomputable def massAspect (psi2 sigma : Field) : Field := fun u θ φ =>
  psi2 u θ φ + sigma u θ φ * dt (bar sigma) u θ φ + eth (-1) (eth (-2) (bar sigma)) u θ φ

/-- The equations of Bondi gauge: `ψ̇₀ = ðψ₁ + 3σψ₂`, `ψ̇₁ = ðψ₂ + 2σψ₃`, `ψ̇₂ = ðψ₃ + σψ₄`, `ψ₃ = -ð∂σ̄/∂u`, `ψ₄ = -∂²σ̄/∂u²`, and the mass aspect is real.
The fields are numbered `ψ₀`, …, `ψ₄`, `σ`. -/
structure Bondi (F : Fin 6 → Field) : Prop where
  b0 : ∀ u θ φ, 0 < θ → θ < Real.pi → dt (F 0) u θ φ = eth 1 (F 1) u θ φ + 3 * F 5 u θ φ * F 2 u θ φ
  b1 : ∀ u θ φ, 0 < θ → θ < Real.pi → dt (F 1) u θ φ = eth 0 (F 2) u θ φ + 2 * F 5 u θ φ * F 3 u θ φ
  b2 : ∀ u θ φ, 0 < θ → θ < Real.pi → dt (F 2) u θ φ = eth (-1) (F 3) u θ φ + F 5 u θ φ * F 4 u θ φ
  c3 : ∀ u θ φ, 0 < θ → θ < Real.pi → F 3 u θ φ = -eth (-2) (dt (bar (F 5))) u θ φ
  c4 : ∀ u θ φ, 0 < θ → θ < Real.pi → F 4 u θ φ = -dt (dt (bar (F 5))) u θ φ
  mass : ∀ u θ φ, 0 < θ → θ < Real.pi → (massAspect (F 2) (F 5) u θ φ).im = 0

/-- What the code evaluates in the direction `(θ, φ)`, for a boost with the velocity `beta` along the polar axis and the supertranslation `alpha`. -/
noncomputable def dirAt (beta : ℝ) (alpha : ℝ → ℝ → ℝ) (F : Fin 6 → Field) (time : Nat → ℝ) (θ φ : ℝ) : Dir where
  vr := beta * Real.cos θ
  ethVr := ethOp 0 (fun θ _ => ((beta * Real.cos θ : ℝ) : ℂ)) θ φ / (√2 : ℝ)
  alpha := alpha θ φ
  ethAlphaNP := ethOp 0 (fun θ φ => (alpha θ φ : ℂ)) θ φ
  ethEthAlphaNP := ethOp 1 (ethOp 0 (fun θ φ => (alpha θ φ : ℂ))) θ φ
  psi0 := fun i => F 0 (time i) θ φ
  psi1 := fun i => F 1 (time i) θ φ
  psi2 := fun i => F 2 (time i) θ φ
  psi3 := fun i => F 3 (time i) θ φ
  psi4 := fun i => F 4 (time i) θ φ
  sigma := fun i => F 5 (time i) θ φ

/-- The Doppler factor in the direction `θ`. -/
noncomputable def factor (beta θ : ℝ) : ℝ := 1 / (gamma beta * (1 - beta * Real.cos θ))

/-- The data in the new frame, at the time `u'` and in the direction `(θ', φ)` of this frame: what the code finds at the time `u = u'/k + α` in the direction `(θ, φ)` of the old frame, `θ` the polar angle before the
aberration. -/
noncomputable def moved (beta : ℝ) (alpha : ℝ → ℝ → ℝ) (F : Fin 6 → Field) (c : Fin 6) : Field := fun u' θ' φ =>
  let θ := thetaOf beta θ'
  let u := u' / factor beta θ + alpha θ φ
  (fprime (gamma beta) (dirAt beta alpha F (fun _ => u) θ φ) 0 u).getD c 0

end Verif.Spec.BondiFrame
