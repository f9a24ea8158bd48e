import Verif.Spec.GridMultiply
import Verif.Spec.Charges
import Verif.Spec.Sphere

/-!
# Specification: the conformal factor and supermomenta at rest
-/

namespace Verif.Spec.Moreschi
open Verif.Modes Verif.Superrest Verif.GridMultiply.Spec Verif.Spec.Sphere

/-- The conformal factor of the rest frame of the momentum `(E, p)`: `K = M / (E - p·n)` with `M² = E² - p²`. -/
noncomputable def factor (E : ℝ) (p : Fin 3 → ℝ) (θ φ : ℝ) : ℝ := √(E ^ 2 - (p 0 ^ 2 + p 1 ^ 2 + p 2 ^ 2)) / (E - (p 0 * nHat 0 θ φ + p 1 * nHat 1 θ φ + p 2 * nHat 2 θ φ))

/-- A spline through equal values is constant. -/
def ConstSpline (spline : List ℝ → List ℝ → ℝ → ℝ) : Prop := ∀ (t : List ℝ) (c x : ℝ), 2 ≤ t.length → spline t (List.replicate t.length c) x = c

/-- A spline through points on a straight line is that line. -/
def AffineSpline (spline : List ℝ → List ℝ → ℝ → ℝ) : Prop := ∀ (t : List ℝ) (a b x : ℝ), 2 ≤ t.length → t.Pairwise (· < ·) → spline t (t.map fun u => a + u * b) x = a + x * b

/-- A real function with modes up to `L`. -/
def RealFunction (L : Int) (c : Int → Int → ℂ) : Prop := ∀ ell m, 0 ≤ ell → ell ≤ L → |m| ≤ ell → c ell (-m) = (-1) ^ m.natAbs * (starRingEnd ℂ) (c ell m)

/-- The series does not depend on time: at each of its (at least two) times, its modes are those of `row`. -/
structure Constant (psi : MTS) (L : Int) (row : Row ℂ) : Prop where
  ellMax : psi.ellMax = L
  data : psi.data = List.replicate psi.t.length row
  times : 2 ≤ psi.t.length

/-- The series is `row0 + t row1`, with a four-momentum that does not change. -/
structure Affine (psi : MTS) (L : Int) (row0 row1 : Row ℂ) : Prop where
  ellMax : psi.ellMax = L
  data : psi.data = psi.t.map fun (t : ℝ) i => row0 i + t * row1 i
  times : 2 ≤ psi.t.length
  increasing : psi.t.Pairwise (· < ·)
  momentum : ∀ ell m, 0 ≤ ell → ell ≤ 1 → |m| ≤ ell → modesOf row1 ell m = 0

/-- A supermomentum at rest: the energy `E = -Ψ_00 / √4π` is positive and the momentum is 0. -/
structure AtRest (row : Row ℂ) : Prop where
  energy : (modesOf row 0 0).re < 0
  momentum : ∀ m, |m| ≤ 1 → modesOf row 1 m = 0

end Verif.Spec.Moreschi
