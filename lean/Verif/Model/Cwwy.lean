import Verif.Model.Superrest

/-!
# Model of `CWWY_angular_momentum`

`scri/asymptotic_bondi_data/bms_charges.py` lines 104-132, at one time.
-/

namespace Verif.Cwwy
open Verif.Charges Verif.Modes Verif.Superrest

/-- `np.array(f)`: the row of the modes from `ell = 0`.  Column `i` holds `ell = isqrt(i)`, `m = i - ell (ell + 1)`. -/
def rowOf (f : Modes) : Row ℂ := fun i => f (Int.sqrt i) (i - Int.sqrt i * (Int.sqrt i + 1))

/-- `Modes(row, spin_weight=0, ell_min=0, ell_max=ell_max)` (lines 114-123). -/
def modesOfRow (ellMax : Int) (row : Row ℂ) : Modes := fun ell m => if ell ≤ ellMax then row (lmIndex ell m 0) else 0

/-- `supertranslation_potential` (lines 111-123). -/
noncomputable def potential (ellMax : Int) (d : Abd) : Modes :=
  modesOfRow ellMax (opDinv (rowOf fun ell m => ethbarGHP 1 (ethbarGHP 2 d.sigma) ell m + ethGHP (-1) (ethGHP (-2) (bar 2 d.sigma)) ell m) ellMax)

/-- `CWWY_angular_momentum` (lines 104-132).  `mass_aspect()` has the truncation `max`, which is at `ell_max` as both factors have that. -/
noncomputable def cwwyAngularMomentum (mul : Int → Int → Modes → Modes → Modes) (ellMax : Int) (d : Abd) : Py (List ℝ) := do
  let c := potential ellMax d
  let v ← chargeVectorFromAspect (view1 fun ell m => Complex.I * (truncateEll 1 d.psi1 ell m
    + truncateEll 1 (mul 2 (-1) d.sigma (ethGHP (-2) (bar 2 d.sigma))) ell m
    + truncateEll 1 (mul 0 1 c (ethGHP 0 (massAspect mul ellMax d (.callable ellMax)))) ell m))
  pure (v.drop 1)

end Verif.Cwwy
