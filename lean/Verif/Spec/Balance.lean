import Verif.Model.Charges
import Verif.Spec.Sphere
import Verif.Spec.Flux
import Mathlib.Analysis.Calculus.Deriv.Basic

/-!
# Specification: products of functions on the sphere, and Bondi data as functions of time
-/

namespace Verif.Spec.Balance
open Verif.GridMultiply Verif.Spec.Sphere Verif.Charges ComplexConjugate
open Verif.Slicing (WM)
open Verif.Spec.Slicing (Valid)
open Verif.Spec.Flux (modesOf)

/-- `mul s t f g` are the modes of the product of the functions of spin weights `s` and `t` with the modes `f` and `g`, `ell <= b`. -/
def IsProduct (b : Int) (mul : Int → Int → Modes → Modes → Modes) : Prop :=
  ∀ (s t : Int) (f g : Modes) (ell m : Int), |s + t| ≤ ell → |m| ≤ ell →
    mul s t f g ell m = solid fun θ φ => conj (Y (s + t) ell m (rotor θ φ)) * (field s 0 b f θ φ * field t 0 b g θ φ)

/-- The fields as functions of time, with two derivatives of the shear. -/
structure History where
  psi1 : ℝ → Modes
  psi2 : ℝ → Modes
  sigma : ℝ → Modes
  sigmaDot : ℝ → Modes
  sigmaDdot : ℝ → Modes

/-- The data at the time `u`. -/
def History.at (d : History) (u : ℝ) : Abd := ⟨u, d.psi1 u, d.psi2 u, d.sigma u, d.sigmaDot u⟩

/-- `ψ₃ = -∂ðσ̄/∂u` and `ψ₄ = -∂²σ̄/∂u²`. -/
noncomputable def History.psi3 (d : History) (u : ℝ) : Modes := fun ell m => -ethGHP (-2) (bar 2 (d.sigmaDot u)) ell m
noncomputable def History.psi4 (d : History) (u : ℝ) : Modes := fun ell m => -bar 2 (d.sigmaDdot u) ell m

/-- The equations of Bondi gauge `ψ̇₁ = ðψ₂ + 2σψ₃` and `ψ̇₂ = ðψ₃ + σψ₄`, and the reality of `ψ₂ + ð²σ̄ + σ∂σ̄/∂u`, for `ell <= 1`. -/
structure Bondi (mul : Int → Int → Modes → Modes → Modes) (d : History) : Prop where
  news : ∀ u ell m, HasDerivAt (fun u => d.sigma u ell m) (d.sigmaDot u ell m) u
  news' : ∀ u ell m, HasDerivAt (fun u => d.sigmaDot u ell m) (d.sigmaDdot u ell m) u
  dpsi2 : ∀ u ell m, ell ≤ 1 → |m| ≤ ell → HasDerivAt (fun u => d.psi2 u ell m) (ethGHP (-1) (d.psi3 u) ell m + mul 2 (-2) (d.sigma u) (d.psi4 u) ell m) u
  dpsi1 : ∀ u ell m, ell = 1 → |m| ≤ ell → HasDerivAt (fun u => d.psi1 u ell m) (ethGHP 0 (d.psi2 u) ell m + 2 * mul 2 (-1) (d.sigma u) (d.psi3 u) ell m) u
  real : ∀ u ell m, ell = 1 → |m| ≤ ell →
    let M : Modes := fun ell m => d.psi2 u ell m + ethGHP (-1) (ethGHP (-2) (bar 2 (d.sigma u))) ell m + mul 2 (-2) (d.sigma u) (bar 2 (d.sigmaDot u)) ell m
    bar 0 M ell m = M ell m

/-- `h` and `hd` are waveforms with the modes `2 <= ell <= b` of the strain `2σ̄` and its time derivative, at the times of `h`. -/
structure Strain (b : Int) (d : History) (h hd : WM ℝ Unit ℂ) : Prop where
  valid : Valid h
  valid' : Valid hd
  cols : 2 ≤ h.nCols
  cols' : 2 ≤ hd.nCols
  times : hd.t = h.t
  lo : h.ellMin = 2
  lo' : hd.ellMin = 2
  hi : h.ellMax = b
  hi' : hd.ellMax = b
  strain : ∀ (k : Nat) (u : ℝ), h.t[k]? = some u → ∀ ell m, 2 ≤ ell → ell ≤ b → |m| ≤ ell → modesOf h k ell m = 2 * bar 2 (d.sigma u) ell m
  rate : ∀ (k : Nat) (u : ℝ), h.t[k]? = some u → ∀ ell m, 2 ≤ ell → ell ≤ b → |m| ≤ ell → modesOf hd k ell m = 2 * bar 2 (d.sigmaDot u) ell m

end Verif.Spec.Balance
