import Verif.Spec.Moreschi

/-!
# Specification: data that lose energy into all directions alike (C79)
-/

namespace Verif.Spec.SuperrestRadiating
open Verif.Modes Verif.Superrest Verif.GridMultiply.Spec Verif.Spec.Moreschi

/-- The supermomentum is `Ψ + b u` with the modes `row` of `Ψ`: as many times as needed, all at rest, and the mass changes at the rate `-b`. -/
structure Losing (psi : MTS) (L : Int) (row : Row ℂ) (b : ℝ) : Prop where
  ellMax : psi.ellMax = L
  data : psi.data = psi.t.map fun (t : ℝ) i => row i + t * (if i = 0 then ((b * √(4 * Real.pi) : ℝ) : ℂ) else 0)
  times : 2 ≤ psi.t.length
  increasing : psi.t.Pairwise (· < ·)
  rest : ∀ r ∈ psi.data, AtRest r

/-- The factor of `𝔇 = ð²ð̄²`. -/
noncomputable def eigenvalue (ell : Int) : ℝ := (ell + 2) * (ell + 1) * ell * (ell - 1) / 4

/-- The norm of the modes with `ell >= 2`. -/
noncomputable def excess (L : Int) (c : Int → Int → ℂ) : ℝ := √(∑ ell ∈ Finset.Icc 2 L, ∑ m ∈ Finset.Icc (-ell) ell, ‖c ell m‖ ^ 2)

/-- The supermomentum `Ψ + b u` in the frame that is moved by the supertranslation `α`: at the time `α`, minus `𝔇α`. -/
noncomputable def moved (b : ℝ) (Ψ α : Int → Int → ℂ) : Int → Int → ℂ := fun ell m => Ψ ell m + b * α ell m - eigenvalue ell * α ell m

end Verif.Spec.SuperrestRadiating
