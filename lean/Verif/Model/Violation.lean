import Verif.Model.Parity
import Verif.Model.Norm

/-!
# Model of the measures of parity violation (`scri/waveform_modes.py` lines 768-776, 819-827, 878-886, 935-943)

One time sample, as in `Model/Parity`.
-/

namespace Verif.Violation
open Verif Verif.Modes Verif.Parity

/-- The row of `data` as a list. -/
def rowList (W : Wave) : List ℂ := (List.range W.nModes).map fun i : Nat => W.row (i : Int)

/-- `self.norm()` (`scri/waveform_base.py` lines 535-551). -/
noncomputable def norm (W : Wave) : ℝ := Norm.rowNorm (rowList W)

/-- `x_parity_violation_squared` (lines 768-771) and the three others (819-822, 878-881, 935-938). -/
noncomputable def violationSquared (ax : Axis) (garbage : Row ℂ) (W : Wave) : Py ℝ := do
  let A ← antisymmetricPart ax garbage W
  pure (norm A)

/-- `x_parity_violation_normalized` (lines 773-776) and the three others (824-827, 883-886, 940-943).  The antisymmetric part of data that are 0 is 0, and numpy gives nan, written `none`, for 0/0. -/
noncomputable def violationNormalized (ax : Axis) (garbage : Row ℂ) (W : Wave) : Py (Option ℝ) := do
  let A ← antisymmetricPart ax garbage W
  pure (if norm W = 0 then none else some (Real.sqrt (norm A / norm W)))

end Verif.Violation
