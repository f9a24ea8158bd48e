import Verif.Model.ModeCalc
import Verif.Model.SuperrestLoop
import Mathlib.Analysis.Calculus.Deriv.Basic
import Mathlib.Analysis.Quaternion

/-!
# Model of the rotation to a target strain

`scri/asymptotic_bondi_data/map_to_superrest_frame.py` lines 422-438 (`rotation_from_vectors`) and 441-525 (`rotation_to_map_to_superrest_frame` with a `target_strain`).
The loop is that of `Verif.Model.SuperrestLoop`, `angular_velocity` that of `Verif.Model.ModeCalc`.
Simplification: a waveform is a function of time that is sampled at its times, and the derivatives and interpolations by splines are those of the function.
-/

namespace Verif.TargetRotation
open Verif Verif.Modes Verif.ModeCalc Verif.SuperrestLoop

abbrev Vec := Fin 3 → ℝ

/-- A waveform with `ell >= 2`: for the data `abd` the strain is `2.0 * abd.sigma.bar`. -/
structure Wave where
  t : List ℝ
  strain : ℝ → Row ℂ
  ellMax : Int

/-- What is called: `numpy.linalg.solve`; `align a b t` is `quaternion.optimal_alignment_in_Euclidean_metric(a, b, t=t)`; `turn L q` is what `abd.transform(frame_rotation=q)` does to the modes of the strain with `ell <= L`
(the subject of C61 and C81); `integrate y t` is the last value of `integrate(y, t)`. -/
structure Ext where
  solve : Mat ℝ → Vec → Py Vec
  align : List Vec → List Vec → List ℝ → Quaternion ℝ
  turn : Int → Quaternion ℝ → Row ℂ → Row ℂ
  integrate : List ℝ → List ℝ → ℝ

variable (ext : Ext)

/-- `.dot`, `data_dot`. -/
noncomputable def dot (f : ℝ → Row ℂ) : ℝ → Row ℂ := fun s i => deriv (fun u => f u i) s

/-- `omega / np.linalg.norm(omega, axis=-1)[:, None]` at one time. -/
noncomputable def unit (v : Vec) : Vec := fun c => v c / √(v 0 ^ 2 + v 1 ^ 2 + v 2 ^ 2)

/-- `angular_velocity()` of the waveform with the data `f`, and its direction, at one time (lines 490-492, 502-503 and 515-516). -/
noncomputable def direction (L : Int) (f : ℝ → Row ℂ) (s : ℝ) : Py Vec := do
  let w ← angularVelocity ext.solve (f s) (dot f s) (LMRange 2 L)
  pure (unit w)

noncomputable def directions (L : Int) (f : ℝ → Row ℂ) (ts : List ℝ) : Py (List Vec) := ts.mapM (direction ext L f)

/-- `MT_to_WM(2.0 * abd.sigma.bar.dot)` (lines 501 and 514). -/
noncomputable def news (w : Wave) : ℝ → Row ℂ := dot w.strain

/-- `target_news` (lines 476-488): the `.dot` of the time series of `target_strain.data_dot`. -/
noncomputable def targetNews (g : Wave) : ℝ → Row ℂ := dot (dot g.strain)

/-- `rotation_from_vectors(vector, target_vector, t)` (lines 422-438). -/
noncomputable def rotationFromVectors (v u : List Vec) (ts : List ℝ) : Tr := { Tr.one with rotation := (ext.align v u ts)⁻¹ }

/-- `np.linalg.norm(omega - target, axis=-1)` -/
noncomputable def distances (v u : List Vec) : List ℝ := List.zipWith (fun a b => √((a 0 - b 0) ^ 2 + (a 1 - b 1) ^ 2 + (a 2 - b 2) ^ 2)) v u

/-- Lines 518-520: `integrate(...)[-1] / (t[-1] - t[0])`; for a single time `0 / 0`. -/
noncomputable def error (u : List Vec) (w : Wave) (v : List Vec) : Err :=
  if w.t.getLastD 0 = w.t.headD 0 then .nan
  else .fin (ext.integrate (distances v u) w.t / (w.t.getLastD 0 - w.t.headD 0))

/-- What the loop (lines 498-525) calls; `u` are the directions of the target at the times `ts`.  The product of two rotations is a rotation (C36; the sign of the rotor has no effect). -/
noncomputable def env (u : List Vec) (ts : List ℝ) : Env Wave (List Vec) where
  charge w := directions ext w.ellMax (news w) w.t
  fromCharge v := .ok (rotationFromVectors ext v u ts)
  compose new old := .ok { Tr.one with rotation := old.rotation * new.rotation }
  transform w T := .ok { w with strain := fun s => ext.turn w.ellMax T.rotation (w.strain s) }
  error w v := error ext u w v

/-- `rotation_to_map_to_superrest_frame(abd, target_strain, N_itr_max, rel_err_tol)` (lines 441-525): the transformation and all errors. -/
noncomputable def rotationToTarget (g w : Wave) (N : Int) (tol : Err) : Py (Tr × List Err) := do
  let u ← directions ext g.ellMax (targetNews g) w.t
  rotation (env ext u w.t) w N tol

end Verif.TargetRotation
