import Verif.Model.Charges
import Verif.Model.AbdFrame

/-!
# Model of `rel_err_for_abd_in_superrest` (`scri/asymptotic_bondi_data/map_to_superrest_frame.py` lines 621-667), without a target strain

With a target strain the error of the rotation is that of `Verif.Model.TargetRotation`.
-/

namespace Verif.FrameErrors
open Verif Verif.Charges Verif.Modes Verif.SuperrestLoop

/-- What the function calls: `mul` is the product of time series and `dflt` its truncation (see `Verif.Model.Charges`), `prod` is `sigma.grid_multiply(sigma.bar.dot)`, `integrate y t` is the last value of `integrate(y, t)`. -/
structure Ext where
  mul : Int → Int → Modes → Modes → Modes
  dflt : Int
  prod : Abd → Modes
  integrate : List ℝ → List ℝ → ℝ

/-- An `AsymptoticBondiData`: the data at each of its times, with modes up to `ellMax`. -/
structure Data where
  at' : List Abd
  ellMax : Int

/-- `target_PsiM`, with modes from `ell = 0` up to those of the data. -/
structure Target where
  t : List ℝ
  modes : Nat → Modes

variable (ext : Ext)

/-- `np.linalg.norm(v, axis=-1)` for three components. -/
noncomputable def norm3 (v : Fin 3 → ℝ) : ℝ := √(v 0 ^ 2 + v 1 ^ 2 + v 2 ^ 2)

/-- A list as a vector. -/
def vec (l : List ℝ) : Fin 3 → ℝ := fun i => l.getD i.1 0

/-- The norm of `abd.bondi_CoM_charge() / abd.bondi_four_momentum()[:, 0, None]` at one time (line 622); `none` if the energy is 0 (nan or infinite). -/
noncomputable def place (d : Abd) : Py (Option ℝ) := do
  let G ← bondiCoMCharge ext.mul d
  let P ← bondiFourMomentum ext.mul ext.dflt d
  pure (if P.getD 0 0 = 0 then none else some (norm3 fun i => vec G i / P.getD 0 0))

/-- `abd.bondi_dimensionless_spin()` at one time (line 653; `bms_charges.py` lines 135-151); `none` (nan or infinite) unless the momentum is less than the energy. -/
noncomputable def spin (d : Abd) : Py (Option (Fin 3 → ℝ)) := do
  let N ← bondiBoostCharge ext.mul d
  let J ← bondiAngularMomentum ext.mul d
  let P ← bondiFourMomentum ext.mul ext.dflt d
  let p0 := P.getD 0 0
  let p := vec (P.drop 1)
  pure (if p0 = 0 ∨ p0 ^ 2 ≤ ∑ i, p i ^ 2 then none else some (dimensionlessSpin (vec N) (vec J) p0 p))

/-- `spin / np.linalg.norm(spin, axis=-1)[:, None]` (line 654) and the distance from the `z` axis (line 655): the quotient of 0 and 0 is nan. -/
noncomputable def tilt (s : Option (Fin 3 → ℝ)) : Option ℝ :=
  match s with
  | none => none
  | some s => if norm3 s = 0 then none else some (norm3 fun i => s i / norm3 s - (if i = 2 then 1 else 0))

/-- `integrate(y, t)[-1] / (t[-1] - t[0])` (lines 623 and 655-657).  A value that is nan or infinite, and a single time (`0 / 0`), give an error that is not less than any number; here it is nan. -/
noncomputable def average (y : List (Option ℝ)) (t : List ℝ) : Py Err :=
  if t = [] then .error .indexError
  else if none ∈ y ∨ t.getLastD 0 = t.headD 0 then .ok .nan
  else .ok (.fin (ext.integrate (y.map (·.getD 0)) t / (t.getLastD 0 - t.headD 0)))

/-- `np.linalg.norm(x[4:])` for the modes of `f` up to `L`. -/
noncomputable def norm4 (L : Int) (f : Modes) : ℝ := √((((LMRange 0 L).drop 4).map fun p => ‖f p.1 p.2‖ ^ 2).sum)

/-- The modes of `abd.supermomentum("Moreschi")` at the time nearest to 0 (lines 659-665). -/
noncomputable def superAt (a : Data) : Py Modes := do
  let k ← AbdFrame.nearest (a.at'.map (·.t)) 0
  match a.at'[k]? with
  | none => .error .indexError
  | some d => supermomentum (ext.prod d) d "moreschi" false

/-- Lines 659-665. -/
noncomputable def superError (a : Data) (target : Option Target) : Py Err := do
  let f ← superAt ext a
  match target with
  | none => pure (.fin (norm4 a.ellMax f))
  | some T => do
    let k ← AbdFrame.nearest T.t 0
    pure (.fin (norm4 a.ellMax fun ell m => f ell m - T.modes k ell m))

/-- `rel_err_for_abd_in_superrest(abd, target_PsiM, None)` (lines 621-667). -/
noncomputable def errors (target : Option Target) (a : Data) : Py (Err × Err × Err) := do
  let t := a.at'.map (·.t)
  let G ← a.at'.mapM (place ext)
  let e1 ← average ext G t
  let s ← a.at'.mapM (spin ext)
  let e2 ← average ext (s.map tilt) t
  let e3 ← superError ext a target
  pure (e1, e2, e3)

end Verif.FrameErrors
