import Verif.Model.Constraints
import Verif.Spec.SphereOps
import Verif.Spec.Balance
import Verif.Spec.ChargeCov

/-!
# Specification: the equations of Bondi gauge in one direction, at one time
-/

namespace Verif.Spec.Constraints
open Verif.Constraints Verif.Spec.Sphere Verif.Spec.SphereOps ComplexConjugate
open Verif.Charges (Modes)

/-- `ð` with the factor `1/√2` of Geroch, Held and Penrose. -/
noncomputable def eth (s : Int) (F : ℝ → ℝ → ℂ) : ℝ → ℝ → ℂ := fun θ φ => ethOp s F θ φ / (√2 : ℝ)

/-- The left-hand side minus the right-hand side of `ψ̇₀ = ðψ₁ + 3σψ₂`, `ψ̇₁ = ðψ₂ + 2σψ₃`, `ψ̇₂ = ðψ₃ + σψ₄`, `ψ₃ = -∂ðσ̄/∂u`, `ψ₄ = -∂²σ̄/∂u²`, `Im ψ₂ = -Im (ð²σ̄ + σ ∂σ̄/∂u)`, in the direction `(θ, φ)`. -/
noncomputable def violation (d : Data) : Fin 6 → ℝ → ℝ → ℂ :=
  let f := fun s g => field s 0 d.ellMax g
  ![fun θ φ => f 2 d.psi0Dot θ φ - (eth 1 (f 1 d.psi1) θ φ + 3 * f 2 d.sigma θ φ * f 0 d.psi2 θ φ),
    fun θ φ => f 1 d.psi1Dot θ φ - (eth 0 (f 0 d.psi2) θ φ + 2 * f 2 d.sigma θ φ * f (-1) d.psi3 θ φ),
    fun θ φ => f 0 d.psi2Dot θ φ - (eth (-1) (f (-1) d.psi3) θ φ + f 2 d.sigma θ φ * f (-2) d.psi4 θ φ),
    fun θ φ => f (-1) d.psi3 θ φ - -eth (-2) (fun θ φ => conj (f 2 d.sigmaDot θ φ)) θ φ,
    fun θ φ => f (-2) d.psi4 θ φ - -conj (f 2 d.sigmaDdot θ φ),
    fun θ φ => ((f 0 d.psi2 θ φ).im - -(eth (-1) (eth (-2) fun θ φ => conj (f 2 d.sigma θ φ)) θ φ + f 2 d.sigma θ φ * conj (f 2 d.sigmaDot θ φ)).im : ℝ)]

/-- The spin weights of the six equations. -/
def spins : Fin 6 → Int := ![2, 1, 0, -1, -2, 0]

/-- All fields of `d'` are those of `d` with respect to the basis rotated by `Q`. -/
structure Rotated (Q : Quaternion ℝ) (d' d : Data) : Prop where
  ellMax : d'.ellMax = d.ellMax
  psi0Dot : ChargeCov.RotatedModes d.ellMax 2 Q d'.psi0Dot d.psi0Dot
  psi1Dot : ChargeCov.RotatedModes d.ellMax 1 Q d'.psi1Dot d.psi1Dot
  psi2Dot : ChargeCov.RotatedModes d.ellMax 0 Q d'.psi2Dot d.psi2Dot
  psi1 : ChargeCov.RotatedModes d.ellMax 1 Q d'.psi1 d.psi1
  psi2 : ChargeCov.RotatedModes d.ellMax 0 Q d'.psi2 d.psi2
  psi3 : ChargeCov.RotatedModes d.ellMax (-1) Q d'.psi3 d.psi3
  psi4 : ChargeCov.RotatedModes d.ellMax (-2) Q d'.psi4 d.psi4
  sigma : ChargeCov.RotatedModes d.ellMax 2 Q d'.sigma d.sigma
  sigmaDot : ChargeCov.RotatedModes d.ellMax 2 Q d'.sigmaDot d.sigmaDot
  sigmaDdot : ChargeCov.RotatedModes d.ellMax 2 Q d'.sigmaDdot d.sigmaDdot

/-- The fields at the time with number `i`; derivatives are sums over the values at all times, with the weights `w` and `w2`. -/
noncomputable def dataAt (w w2 : List ℝ → Nat → Nat → ℝ) (a : AbdModes.Abd) (i : Nat) : Data :=
  let dot := fun (w : List ℝ → Nat → Nat → ℝ) (c : Fin 6) => (fun ell m => ∑ j ∈ Finset.range a.t.length, (w a.t i j : ℂ) * AbdModes.Spec.mode a c j ell m : Modes)
  { ellMax := a.ellMax
    psi0 := AbdModes.Spec.mode a 0 i
    psi1 := AbdModes.Spec.mode a 1 i
    psi2 := AbdModes.Spec.mode a 2 i
    psi3 := AbdModes.Spec.mode a 3 i
    psi4 := AbdModes.Spec.mode a 4 i
    sigma := AbdModes.Spec.mode a 5 i
    psi0Dot := dot w 0
    psi1Dot := dot w 1
    psi2Dot := dot w 2
    sigmaDot := dot w 5
    sigmaDdot := dot w2 5 }

end Verif.Spec.Constraints
