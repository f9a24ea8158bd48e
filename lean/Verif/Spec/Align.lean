import Verif.Spec.AngMom
import Mathlib.Analysis.SpecialFunctions.Complex.Arg

/-!
# What it means that a frame is aligned with the modes (C75, C76)
-/

namespace Verif.Spec.Align

open Verif.Spec.AngMom

/-- `‖v · L f‖²` for the modes of degree `a` to `b`: this is `⟨v|LL|v⟩`. -/
noncomputable def spread (a b : Int) (f : Fn) (v : Fin 3 → ℝ) : ℝ := (Verif.Spec.AngMom.inner a b (vL v f) (vL v f)).re

/-- The z axis is a dominant direction of `LL`: no unit vector has a greater expectation value. -/
def ZDominant (a b : Int) (f : Fn) : Prop := ∀ v : Fin 3 → ℝ, ∑ i, v i ^ 2 = 1 → spread a b f v ≤ spread a b f ![0, 0, 1]

/-- Two complex numbers have a phase in common. -/
def SamePhase (x y : ℂ) : Prop := ∃ θ : ℝ, x = ‖x‖ * Complex.exp (θ * Complex.I) ∧ y = ‖y‖ * Complex.exp (θ * Complex.I)

/-- `x` is a unit vector for which a symmetric matrix has its greatest expectation value: an eigenvector of the greatest eigenvalue. -/
def Top (M : Fin 3 → Fin 3 → ℝ) (x : Fin 3 → ℝ) : Prop :=
  ∑ i, x i ^ 2 = 1 ∧ ∀ v : Fin 3 → ℝ, ∑ i, v i ^ 2 = 1 → ∑ i, ∑ j, v i * M i j * v j ≤ ∑ i, ∑ j, x i * M i j * x j

end Verif.Spec.Align
