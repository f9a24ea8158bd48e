import Verif.Spec.BoostTensor

/-!
# Translations, and the center of mass of Bondi data
-/

namespace Verif.Spec.ComFrame
open Verif.Spec.Sphere Verif.Spec.SphereOps Verif.Spec.BondiFrame Verif.Spec.FourMomentum Verif.Spec.BoostTensor

/-- The supertranslation `τ + a · r`: a translation in time and space. -/
noncomputable def shift (τ : ℝ) (a : Fin 3 → ℝ) : ℝ → ℝ → ℝ := fun θ φ => τ + (a 0 * nHat 0 θ φ + (a 1 * nHat 1 θ φ + a 2 * nHat 2 θ φ))

/-- The four-momentum of the data at the time `u`. -/
noncomputable def total (F : Fin 6 → Field) (u : ℝ) : Fin 4 → ℝ := momentum fun θ φ => F 2 u θ φ + F 5 u θ φ * dt (bar (F 5)) u θ φ

/-- The center-of-mass charge `G = N + u P`. -/
noncomputable def com (F : Fin 6 → Field) (u : ℝ) (i : Fin 3) : ℝ := boost F u i + u * total F u i.succ

/-- The place of the center of mass. -/
noncomputable def place (F : Fin 6 → Field) (u : ℝ) (i : Fin 3) : ℝ := com F u i / total F u 0

/-- The tensor `X^m P^n - X^n P^m` of a particle with the momentum `P` at the event `X`. -/
def orbital (X P : Fin 4 → ℝ) : Fin 4 → Fin 4 → ℝ := fun m n => X m * P n - X n * P m

end Verif.Spec.ComFrame
