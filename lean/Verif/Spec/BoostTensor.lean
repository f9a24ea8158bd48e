import Verif.Spec.FourMomentum
import Verif.Spec.BondiFrame

/-!
# The boost charge and the angular momentum of Bondi data, and their components in a boosted frame
-/

namespace Verif.Spec.BoostTensor
open Verif.Spec.Sphere Verif.Spec.SphereOps Verif.Spec.BondiFrame Verif.Spec.FourMomentum

/-- `ð̄` of the components of the unit vector, with the factor `1/√2`. -/
noncomputable def ethbarN (i : Fin 3) (θ φ : ℝ) : ℂ := ethbarOp 0 (fun θ φ => ((nHat i θ φ : ℝ) : ℂ)) θ φ / (√2 : ℝ)

/-- `-(1/4π) ∫ Q ð̄r dΩ`. -/
noncomputable def dipole (Q : ℝ → ℝ → ℂ) (i : Fin 3) : ℂ := (-(1 / (4 * Real.pi)) : ℝ) * solid fun θ φ => Q θ φ * ethbarN i θ φ

/-- `ψ₁ + σ ðσ̄ + ½ ð(σ σ̄) - u ð Re(ψ₂ + σ ∂σ̄/∂u)`. -/
noncomputable def aspect (F : Fin 6 → Field) : Field := fun u θ φ =>
  F 1 u θ φ + F 5 u θ φ * eth (-2) (bar (F 5)) u θ φ + 1 / 2 * eth 0 (fun u θ φ => F 5 u θ φ * bar (F 5) u θ φ) u θ φ
    - u * eth 0 (fun u θ φ => ((F 2 u θ φ + F 5 u θ φ * dt (bar (F 5)) u θ φ).re : ℂ)) u θ φ

/-- The boost charge at the time `u`. -/
noncomputable def boost (F : Fin 6 → Field) (u : ℝ) (i : Fin 3) : ℝ := (dipole (aspect F u) i).re

/-- The angular momentum at the time `u`. -/
noncomputable def angular (F : Fin 6 → Field) (u : ℝ) (i : Fin 3) : ℝ := (dipole (aspect F u) i).im

/-- The antisymmetric tensor `M` with `M^{i0} = Nᵢ` and `M^{ij} = εᵢⱼₖ Jₖ`. -/
def tensor (N J : Fin 3 → ℝ) : Fin 4 → Fin 4 → ℝ :=
  ![![0, -N 0, -N 1, -N 2], ![N 0, 0, J 2, -J 1], ![N 1, -J 2, 0, J 0], ![N 2, J 1, -J 0, 0]]

/-- The components of a tensor in the frame that moves with the velocity `beta` along the `z` axis: those of a vector in both indices. -/
noncomputable def seen2 (beta : ℝ) (M : Fin 4 → Fin 4 → ℝ) : Fin 4 → Fin 4 → ℝ := fun m n => seen beta (fun r => seen beta (M r) n) m

end Verif.Spec.BoostTensor
