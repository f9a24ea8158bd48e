import Verif.Py.Basic
import Mathlib.Analysis.SpecialFunctions.Pow.Real
import Mathlib.Analysis.Complex.Basic
import Mathlib.Analysis.SpecialFunctions.Trigonometric.Basic
import Mathlib.Data.Nat.Factorial.DoubleFactorial

/-!
# Model of `pn_leading_order_amplitude` (`scri/sample_waveforms.py`)

Arithmetic is exact.  `x` and the mass ratio are real numbers.
-/

namespace Verif.PnAmplitude

open scoped Nat

/-- `factorial(n)` of `scipy` (external); for `n < 0` it is 0. -/
noncomputable def factorial (n : Int) : ℝ := if n < 0 then 0 else (n.toNat ! : ℝ)

/-- `factorial2(n)` of `scipy` (external); for `n < 0` it is 0. -/
noncomputable def factorial2 (n : Int) : ℝ := if n < 0 then 0 else (n.toNat ‼ : ℝ)

/-- `sigma(ell)` (lines 555-556). -/
noncomputable def sigma (X1 X2 : ℝ) (ell : Int) : ℝ := X2 ^ (ell - 1) + (-1) ^ ell * X1 ^ (ell - 1)

/-- `amplitude` if `ell + m` is even (lines 559-571). -/
noncomputable def ampEven (ell m : Int) (x X1 X2 : ℝ) : ℂ :=
  (((-1) ^ ((ell - m + 2) / 2) / (2 ^ (ell + 1) * factorial ((ell + m) / 2) * factorial ((ell - m) / 2) * factorial2 (2 * ell - 1)) *
      √((5 * (ell + 1) * (ell + 2) * factorial (ell + m) * factorial (ell - m)) / (ell * (ell - 1) * (2 * ell + 1))) * sigma X1 X2 ell : ℝ) : ℂ) *
    (Complex.I * m) ^ ell * ((x ^ ((ell : ℝ) / 2 - 1) : ℝ) : ℂ)

/-- `amplitude` if `ell + m` is odd (lines 573-591). -/
noncomputable def ampOdd (ell m : Int) (x X1 X2 : ℝ) : ℂ :=
  (((-1) ^ ((ell - m - 1) / 2) / (2 ^ (ell - 1) * factorial ((ell + m - 1) / 2) * factorial ((ell - m - 1) / 2) * factorial2 (2 * ell + 1)) *
      √((5 * (ell + 2) * (2 * ell + 1) * factorial (ell + m) * factorial (ell - m)) / (ell * (ell - 1) * (ell + 1))) * sigma X1 X2 (ell + 1) : ℝ) : ℂ) *
    Complex.I * (Complex.I * m) ^ ell * ((x ^ (((ell : ℝ) - 1) / 2) : ℝ) : ℂ)

/-- The function for `m >= 0` (lines 549-593). -/
noncomputable def ampNonneg (ell m : Int) (x massRatio : ℝ) : ℂ :=
  let q := if massRatio < 1 then 1 / massRatio else massRatio
  let nu := q / (1 + q) ^ 2
  let X1 := q / (q + 1)
  let X2 := 1 / (q + 1)
  let amplitude := if (ell + m) % 2 = 0 then ampEven ell m x X1 X2 else ampOdd ell m x X1 X2
  ((8 * √(Real.pi / 5) * nu * x : ℝ) : ℂ) * amplitude

/-- `pn_leading_order_amplitude(ell, m, x, mass_ratio)` (lines 536-593).  The recursion of line 547 has depth 1. -/
noncomputable def amplitude (ell m : Int) (x massRatio : ℝ) : ℂ :=
  if m < 0 then (-1) ^ ell * (starRingEnd ℂ) (ampNonneg ell (-m) x massRatio) else ampNonneg ell m x massRatio

end Verif.PnAmplitude
