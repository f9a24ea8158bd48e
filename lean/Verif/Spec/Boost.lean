import Verif.Spec.Sphere

/-!
# The boost flux as an integral

`eth` and `ethbar` of a function of spin weight `s`, on its modes, in the Newman-Penrose convention; the modes of the components of the
unit vector; the integrand of Flanagan and Nichols, arXiv:1510.03386, equation (C.1), as quoted by the documentation of `boost_flux`.
-/

namespace Verif.Spec.Boost
open Verif.Spec.Sphere ComplexConjugate

/-- `ð`, from spin weight `s` to `s + 1`. -/
noncomputable def eth (s : Int) (f : Int → Int → ℂ) : Int → Int → ℂ := fun ell m => ((√(((ell : ℝ) - s) * (ell + s + 1)) : ℝ) : ℂ) * f ell m

/-- `ð̄`, from spin weight `s` to `s - 1`. -/
noncomputable def ethbar (s : Int) (f : Int → Int → ℂ) : Int → Int → ℂ := fun ell m => -((√(((ell : ℝ) + s) * (ell - s + 1)) : ℝ) : ℂ) * f ell m

/-- The modes of the component `i` of the unit vector. -/
noncomputable def chi (i : Fin 3) : Int → Int → ℂ := fun ell m =>
  if ell ≠ 1 then 0
  else if i = 0 then (if m = 1 then -(√(2 * Real.pi / 3) : ℝ) else if m = -1 then (√(2 * Real.pi / 3) : ℝ) else 0)
  else if i = 1 then (if m = 1 ∨ m = -1 then Complex.I * (√(2 * Real.pi / 3) : ℝ) else 0)
  else if m = 0 then (√(4 * Real.pi / 3) : ℝ) else 0

/-- `(1/8) [conj(ð̄N) χ ð̄h - conj(ðN) χ ðh + conj(ð̄h) χ ð̄N - conj(ðh) χ ðN + 6 conj(N) χ h + 6 conj(h) χ N]
  - (1/4) [conj(ðN) (ðχ) h + conj(h) (ð̄χ) ðN] - (u/2) conj(N) χ N`, where `h` and `N` of spin weight -2 are given by their modes. -/
noncomputable def integrand (a b : Int) (χ : Int → Int → ℂ) (u : ℝ) (h N : Int → Int → ℂ) (θ φ : ℝ) : ℂ :=
  let F := fun s f => field s a b f θ φ
  let X := fun s f => field s 1 1 f θ φ
  1 / 8 * (conj (F (-3) (ethbar (-2) N)) * X 0 χ * F (-3) (ethbar (-2) h) - conj (F (-1) (eth (-2) N)) * X 0 χ * F (-1) (eth (-2) h)
      + conj (F (-3) (ethbar (-2) h)) * X 0 χ * F (-3) (ethbar (-2) N) - conj (F (-1) (eth (-2) h)) * X 0 χ * F (-1) (eth (-2) N)
      + 6 * (conj (F (-2) N) * X 0 χ * F (-2) h) + 6 * (conj (F (-2) h) * X 0 χ * F (-2) N))
    - 1 / 4 * (conj (F (-1) (eth (-2) N)) * X 1 (eth 0 χ) * F (-2) h + conj (F (-2) h) * X (-1) (ethbar 0 χ) * F (-1) (eth (-2) N))
    - u / 2 * (conj (F (-2) N) * X 0 χ * F (-2) N)

end Verif.Spec.Boost
