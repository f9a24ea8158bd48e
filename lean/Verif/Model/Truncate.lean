import Verif.Py.Basic
import Mathlib.Analysis.SpecialFunctions.Log.Base
import Mathlib.Analysis.SpecialFunctions.Pow.Real
import Mathlib.Analysis.Complex.Basic

/-!
# Model of `WaveformModes.truncate` (`scri/waveform_modes.py` lines 457-476)

Arithmetic is exact: numbers are not rounded to 53 bits, and do not overflow.  The history is left out.
-/

namespace Verif.Truncate

/-- `np.round` of a real number (external): to the nearest integer, ties to even. -/
noncomputable def roundEven (y : ℝ) : ℤ :=
  if y - ⌊y⌋ < 1 / 2 then ⌊y⌋
  else if 1 / 2 < y - ⌊y⌋ then ⌊y⌋ + 1
  else if ⌊y⌋ % 2 = 0 then ⌊y⌋
  else ⌊y⌋ + 1

/-- `np.round` of a complex number rounds both parts. -/
noncomputable def roundC (z : ℂ) : ℂ := ⟨roundEven z.re, roundEven z.im⟩

/-- `np.linalg.norm(self.data, axis=1)` for one time. -/
noncomputable def rowNorm (row : List ℂ) : ℝ := √((row.map fun z => z.re ^ 2 + z.im ^ 2).sum)

/-- `absolute_tolerance` for one time (lines 470-471). -/
noncomputable def absTol (tol : ℝ) (row : List ℂ) : ℝ := rowNorm row * (tol / √row.length)

/-- `power_of_2` for one time (line 472).  If the tolerance is 0 then `log2` is minus infinity and the power is infinity; if it is negative then it is nan.  Both are `none`. -/
noncomputable def power (a : ℝ) : Option ℝ := if a ≤ 0 then none else some ((2 : ℝ) ^ ⌊-Real.logb 2 a⌋)

/-- Lines 473-475 for one time. -/
noncomputable def scaleRound (p : ℝ) (row : List ℂ) : List ℂ := row.map fun z => roundC (z * p) / p

/-- `truncate(tol)` for one time.  `none` is a row of nan: if the power is infinite then data that are 0 times it are nan; data that are not 0 cannot occur with the tolerance 0. -/
noncomputable def truncateRow (tol : ℝ) (row : List ℂ) : Option (List ℂ) :=
  if tol ≠ 0 then do
    let p ← power (absTol tol row)
    pure (scaleRound p row)
  else some row

/-- `truncate(tol)`. -/
noncomputable def truncate (tol : ℝ) (data : List (List ℂ)) : List (Option (List ℂ)) := data.map (truncateRow tol)

end Verif.Truncate
