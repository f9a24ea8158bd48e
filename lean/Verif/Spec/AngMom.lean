import Mathlib.Analysis.Complex.Basic
import Mathlib.Analysis.SpecialFunctions.Sqrt
import Mathlib.Order.Interval.Finset.Basic
import Mathlib.Data.Int.Interval
import Mathlib.Algebra.BigOperators.Intervals

/-!
# Specification: the angular-momentum operators on modes

`f ell m` are the modes of a function on the sphere; the operators are given by the textbook matrix
elements, in the basis x, y, z (0, 1, 2).
-/

namespace Verif.Spec.AngMom
open ComplexConjugate

/-- The modes of a function. -/
abbrev Fn := Int → Int → ℂ

/-- `L₊ |ell, m⟩ = sqrt((ell - m)(ell + m + 1)) |ell, m+1⟩`, in terms of the modes. -/
noncomputable def raise (g : Fn) : Fn := fun ell m => (Real.sqrt ((ell - m + 1) * (ell + m)) : ℂ) * g ell (m - 1)
/-- `L₋ |ell, m⟩ = sqrt((ell + m)(ell - m + 1)) |ell, m-1⟩`, in terms of the modes. -/
noncomputable def lower (g : Fn) : Fn := fun ell m => (Real.sqrt ((ell + m + 1) * (ell - m)) : ℂ) * g ell (m + 1)

/-- `L_x = (L₊ + L₋)/2`, `L_y = (L₊ - L₋)/(2i)`, `L_z |ell, m⟩ = m |ell, m⟩`. -/
noncomputable def L (a : Fin 3) (g : Fn) : Fn := fun ell m =>
  if a = 0 then (raise g ell m + lower g ell m) / 2
  else if a = 1 then (raise g ell m - lower g ell m) / (2 * Complex.I)
  else (m : ℂ) * g ell m

/-- The inner product of the parts of degree `a ≤ ell ≤ b`. -/
noncomputable def inner (a b : Int) (f g : Fn) : ℂ :=
  ∑ ell ∈ Finset.Icc a b, ∑ m ∈ Finset.Icc (-ell) ell, conj (f ell m) * g ell m

/-- `v · L f` -/
noncomputable def vL (v : Fin 3 → ℝ) (f : Fn) : Fn := fun e m => ∑ c, (v c : ℂ) * L c f e m

/-- How fast the modes change in a frame rotating with angular velocity `w`:
`‖df/dt + i w·L f‖²`. -/
noncomputable def change (a b : Int) (f fdot : Fn) (w : Fin 3 → ℝ) : ℝ :=
  (inner a b (fun e m => fdot e m + Complex.I * vL w f e m) (fun e m => fdot e m + Complex.I * vL w f e m)).re

end Verif.Spec.AngMom
