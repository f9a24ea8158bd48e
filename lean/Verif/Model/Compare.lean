import Verif.Model.Intersection
import Verif.Model.Modes
import Mathlib.Algebra.Quaternion
import Mathlib.Data.Complex.Basic
import Mathlib.Data.Real.Basic

/-!
# Model of `WaveformBase.compare` (`scri/waveform_base.py` lines 577-687)

Arithmetic is exact.  The warning about the frame types, the history and the attributes that are copied from `self` are left out.
-/

namespace Verif.Compare

open Verif Verif.Modes

abbrev ℍ := Quaternion ℝ

/-- The attributes of a `WaveformModes` object that `compare` works on; `data` is given by its columns. -/
structure Wf where
  t : List ℝ
  frame : List ℍ
  ellMin : Int
  ellMax : Int
  cols : List (List ℂ)

/-- External functions: `quaternion.squad`, `mean_rotor_in_chordal_metric`, and `CubicSpline(t, y)(x)` for real `y` (scipy). -/
structure Ext where
  squad : List ℍ → List ℝ → List ℝ → List ℍ
  mean : List ℍ → List ℝ → Py ℍ
  spline : List ℝ → List ℝ → ℝ → ℝ

/-- `np.quaternion.inverse` -/
noncomputable def inverse (q : ℍ) : ℍ := q⁻¹

/-- The frame before its sign is chosen (lines 631-659).  `np.quaternion` is the type, which has no attribute `squad` (lines 640 and 646); numpy has no attribute `quaternions` (lines 652 and 655).  The
last test (line 656) is the same as the one in line 650, so that branch is never reached. -/
noncomputable def frame (e : Ext) (B A : Wf) (t : List ℝ) : Py (List ℍ) :=
  if A.frame.length > 1 ∧ B.frame.length > 1 then .ok (List.zipWith (· * ·) (e.squad A.frame A.t t) ((e.squad B.frame B.t t).map inverse))
  else if A.frame.length = 1 ∧ B.frame.length > 1 then .error .attributeError
  else if A.frame.length > 1 ∧ B.frame.length = 1 then .error .attributeError
  else if A.frame.length = 1 ∧ B.frame.length = 1 then .error .attributeError
  else if A.frame.length = 0 ∧ B.frame.length = 1 then .error .attributeError
  else if A.frame.length = 1 ∧ B.frame.length = 1 then .ok (A.frame.take 1)
  else .ok []

open Classical in
/-- `quaternion.rotor_chordal_distance(R, -1) < quaternion.rotor_chordal_distance(R, 1)` (squares of the distances). -/
noncomputable def nearerMinusOne (R : ℍ) : Bool := decide (Quaternion.normSq (R - (-1)) < Quaternion.normSq (R - 1))

/-- The sign of the frame (lines 661-672). -/
noncomputable def fixSign (e : Ext) (F : List ℍ) (t : List ℝ) : Py (List ℍ) :=
  if F.length = t.length then do
    let R ← e.mean F t
    if nearerMinusOne R then .ok (F.map (- ·)) else .ok F
  else if F.length = 1 then
    if nearerMinusOne F.head! then .ok (F.map (- ·)) else .ok F
  else .ok F

/-- `splineRe(x) + 1j * splineIm(x)` for one column. -/
noncomputable def interpolated (e : Ext) (t : List ℝ) (col : List ℂ) (x : ℝ) : ℂ := ⟨e.spline t (col.map (·.re)) x, e.spline t (col.map (·.im)) x⟩

/-- The loop over the modes (lines 674-685): one column of the result. -/
noncomputable def column (e : Ext) (B A : Wf) (t : List ℝ) (AMode : Nat) : Py (List ℂ) := do
  let lm ← pyGet (LMRange A.ellMin A.ellMax) AMode
  let a ← pyGet A.cols AMode
  let b ← pyGet B.cols (lmIndex lm.1 lm.2 B.ellMin)
  pure (t.map fun x => interpolated e A.t a x - interpolated e B.t b x)

/-- `B.compare(A, min_time_step, min_time)` (lines 577-687).  The last two arguments are not used. -/
noncomputable def compareWf (e : Ext) (B A : Wf) (_minTimeStep _minTime : ℝ) : Py Wf :=
  if B.cols.length ≠ A.cols.length then .error .other
  else do
    let t ← Intersection.intersection B.t A.t none none none
    let F ← frame e B A t
    let F ← fixSign e F t
    let cols ← (List.range A.cols.length).mapM (column e B A t)
    pure { t := t, frame := F, ellMin := B.ellMin, ellMax := B.ellMax, cols := cols }

end Verif.Compare
