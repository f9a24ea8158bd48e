import Mathlib.Algebra.Quaternion
import Mathlib.Analysis.Complex.Basic
import Mathlib.Analysis.SpecialFunctions.Sqrt
import Mathlib.Data.Nat.Choose.Sum
import Mathlib.Algebra.BigOperators.Intervals

/-!
# The Wigner D matrices of `spherical_functions`

scri takes the Wigner D matrices from the external package `spherical_functions`
(`sf._Wigner_D_matrices`, used in `scri/rotations.py` lines 320 and 381).  Its documentation defines

  D^ℓ_{m',m}(R) = sqrt((ℓ+m)! (ℓ-m)! / ((ℓ+m')! (ℓ-m')!)) *
    Σ_ρ binom(ℓ+m', ρ) binom(ℓ-m', ℓ-ρ-m) (-1)^ρ R_a^(ℓ+m'-ρ) conj(R_a)^(ℓ-ρ-m) R_b^(ρ-m'+m) conj(R_b)^ρ

with R_a = w + i z, R_b = y + i x for the quaternion R = w + x i + y j + z k.  That formula is what is
defined here; that the package computes it (for unit quaternions, up to rounding) is an assumption.
-/

namespace Verif.Wigner
open ComplexConjugate

/-- `R.a`, the first spinor component of a quaternion (numpy-quaternion). -/
noncomputable def Ra (R : Quaternion ℝ) : ℂ := ⟨R.re, R.imK⟩
/-- `R.b`, the second spinor component. -/
noncomputable def Rb (R : Quaternion ℝ) : ℂ := ⟨R.imJ, R.imI⟩

/-- The sum over ρ, with `n = 2ℓ`, `i = ℓ + m'`, `j = ℓ + m`; ρ runs over the values for which all
exponents are non-negative. -/
noncomputable def coef (n : ℕ) (p q r s : ℂ) (i j : ℕ) : ℂ :=
  ∑ ρ ∈ (Finset.range (i + 1)).filter (fun ρ => i ≤ j + ρ ∧ j + ρ ≤ n),
    (i.choose ρ : ℂ) * ((n - i).choose (n - j - ρ) : ℂ) * p ^ (i - ρ) * q ^ ρ * r ^ (j + ρ - i) * s ^ (n - j - ρ)

/-- `sqrt((ℓ+m)! (ℓ-m)!)` -/
noncomputable def nu (n j : ℕ) : ℝ := Real.sqrt ((j.factorial : ℝ) * ((n - j).factorial : ℝ))

/-- `D^ℓ_{m',m}(R)` with `n = 2ℓ`, `i = ℓ + m'`, `j = ℓ + m`. -/
noncomputable def D (n : ℕ) (R : Quaternion ℝ) (i j : ℕ) : ℂ :=
  ((nu n j / nu n i : ℝ) : ℂ) * coef n (Ra R) (-conj (Rb R)) (Rb R) (conj (Ra R)) i j

/-- `D^ℓ_{m',m}(R)` for integer `ℓ`, `m'`, `m` with `|m'| ≤ ℓ`, `|m| ≤ ℓ`. -/
noncomputable def Dlm (ell : Int) (R : Quaternion ℝ) (mp m : Int) : ℂ :=
  D (2 * ell).toNat R (ell + mp).toNat (ell + m).toNat

end Verif.Wigner
