import Verif.Model.AbdTransform
import Verif.Model.GridMultiply
import Verif.Model.TransformKwargs
import Verif.Model.Charges

/-!
# Model of `WaveformGrid.from_modes`, `to_modes` and `transform` (`scri/waveform_grid.py` lines 129-190, 274-630)

The processing of keywords is that of `Model/TransformKwargs`, the field equations in one direction are those of `Model/AbdTransform`.  Data have two dimensions (times and modes, or times and directions).
Arithmetic is exact.  `spinsfast.map2salm` and the spline of `scipy` are parameters.  The history is not part of the model.
-/

namespace Verif.GridModes

open Verif Verif.Modes Verif.AbdTransform Verif.TransformKwargs
open Verif.GridMultiply (Y rect)

/-- A `WaveformModes` object. -/
structure WModes where
  t : List ℝ
  dataType : Int
  inertial : Bool
  rOut : Bool
  mOut : Bool
  ellMin : Int
  ellMax : Int
  data : List (Row ℂ)
  frame : List (Quaternion ℝ)

/-- A `WaveformGrid` object; the values at one time are those in the directions of `rect nTheta nPhi`, in this order. -/
structure WGrid where
  t : List ℝ
  dataType : Int
  inertial : Bool
  rOut : Bool
  mOut : Bool
  nTheta : Nat
  nPhi : Nat
  data : List (List ℂ)
  frame : List (Quaternion ℝ)

/-- The unit vector z. -/
def zhat : Fin 3 → ℝ := ![0, 0, 1]

/-- The three numbers in `boost_velocity`. -/
def vec3 (v : List ℝ) : Fin 3 → ℝ := fun i => v.getD i 0

/-- `R_j_k` (lines 129-174): the rotors of the grid, in the frame of the modes.  (The angles of a rotor enter only through the direction.) -/
noncomputable def rotors (r : GridResult) : List (Quaternion ℝ) :=
  let v := vec3 r.boost_velocity
  let beta := vabs v
  (rect r.n_theta.toNat r.n_phi.toNat).map fun n =>
    let rotated := r.frame_rotation * n
    Bprm beta (fun i => v i / beta) (rotateVec rotated zhat) * rotated

/-- `sf.SWSH_grid(R_j_k, s, ell_max)` at one rotor (external): all harmonics up to `ell_max`. -/
noncomputable def swsh (R : Quaternion ℝ) (s ellMax : Int) : List ℂ := (LMRange 0 ellMax).map fun lm => Y s lm.1 lm.2 R

/-- `np.tensordot` of one row of modes and the harmonics in one direction. -/
noncomputable def tensordot (row : Row ℂ) (ys : List ℂ) : ℂ := (ys.zipIdx.map fun p => row p.2 * p.1).sum

/-- The slice of the harmonics that belongs to the modes from `ell_min` to `ell_max` (lines 477-482, 536-543). -/
noncomputable def slice (ys : List ℂ) (ellMin ellMax : Int) : List ℂ := (ys.take (lmIndex ellMax ellMax 0 + 1).toNat).drop (lmIndex ellMin (-ellMin) 0).toNat

/-- The field with the modes in `row` in one direction (lines 470, 475-484; 533-545). -/
noncomputable def field (w : WModes) (s ellMax : Int) (row : Row ℂ) (R : Quaternion ℝ) : ℂ := tensordot row (slice (swsh R s ellMax) w.ellMin w.ellMax)

/-- `np.tensordot` of modes from `ell = 0` to `L` and the harmonics with spin weight `s`. -/
noncomputable def dot (f : Charges.Modes) (s L : Int) (R : Quaternion ℝ) : ℂ := ((LMRange 0 L).map fun lm => f lm.1 lm.2 * Y s lm.1 lm.2 R).sum

/-- `v_dot_rhat` (line 512). -/
noncomputable def vDotR (v : Fin 3 → ℝ) : Charges.Modes := fun ell m =>
  let a := vectorAs (v 0) (v 1) (v 2)
  if ell = 1 then (if m = -1 then a.1 else if m = 0 then a.2.1 else a.2.2) else 0

/-- What is evaluated in the direction of `R` (lines 471-474, 488-493, 497-502, 507-515). -/
noncomputable def direction (r : GridResult) (g : ℝ) (R : Quaternion ℝ) : GridDir :=
  let v := vec3 r.boost_velocity
  let L := r.ellMaxSuper
  let alpha : Charges.Modes := fun ell m => r.supertranslation (lmIndex ell m 0)
  { k := 1 / (g * (1 - ∑ i, v i * rotateVec R zhat i))
    alpha := (dot alpha 0 L R).re
    ethAlpha := dot (fun ell m => (1 / √2 : ℝ) * Charges.ethGHP 0 alpha ell m) 1 L R
    ethVr := dot (fun ell m => (1 / √2 : ℝ) * vDotR v ell m) 1 1 R
    derivH := dot (fun ell m => 2 * Charges.ethbarGHP (-1) (Charges.ethbarGHP 0 alpha) ell m) (-2) L R
    derivSigma := dot (Charges.ethGHP 1 (Charges.ethGHP 0 alpha)) 2 L R }

open Classical in
/-- The negation of `beta != 0 or (supertranslation[1:] != 0).any()` (line 485). -/
noncomputable def isTrivial (r : GridResult) : Bool := decide (vabs (vec3 r.boost_velocity) = 0 ∧ ∀ i ∈ pyRange 1 ((r.ellMaxSuper + 1) ^ 2), r.supertranslation i = 0)

/-- The field of type `DT` at the time with number `i`, in the direction of `R`, if it has been supplied (lines 525-545).  Data with another number of times are an error in line 546, of the same class as missing
ones. (Simplified: a single time is not broadcast.) -/
noncomputable def otherField (other : Int → Option WModes) (n i : Nat) (R : Quaternion ℝ) (DT : Int) : Option ℂ :=
  match other DT with
  | none => none
  | some w => match Weights.spinWeight w.dataType, w.data[i]? with
    | .ok s, some row => if w.data.length = n then some (field w s w.ellMax row R) else none
    | _, _ => none

/-- `fprm_i_j_k[:, j, k]` before the interpolation (lines 475-559). -/
noncomputable def column (other : Int → Option WModes) (r : GridResult) (g : ℝ) (w : WModes) (s c : Int) (R : Quaternion ℝ) : Py (List ℂ) :=
  ((w.t.zip w.data).zipIdx).mapM fun p =>
    gridValue g (isTrivial r) w.dataType c (direction r g R) p.1.1 (field w s r.ell_max p.1.2 R) (otherField other w.data.length p.2 R)

open Classical in
/-- `interpolate.InterpolatedUnivariateSpline(x, y)` at the new times, for real and imaginary part (lines 578-588); the error of `fitpack` for fewer than four points, and that of `scipy` if the points do not increase. -/
noncomputable def resample (spline : List (ℝ × ℝ) → ℝ → ℝ) (t ts : List ℝ) (d : GridDir) (ys : List ℂ) : Py (List ℂ) :=
  let x := t.map fun u => d.k * (u - d.alpha)
  if ¬ x.Pairwise (· < ·) then .error .valueError
  else if x.length ≤ 3 then .error .other
  else .ok (ts.map fun u => ⟨spline (x.zip (ys.map Complex.re)) u, spline (x.zip (ys.map Complex.im)) u⟩)

/-- Lines 462-608, after the processing of keywords. -/
noncomputable def evaluate (spline : List (ℝ × ℝ) → ℝ → ℝ) (other : Int → Option WModes) (w : WModes) (r : GridResult) : Py WGrid := do
  let s ← Weights.spinWeight w.dataType
  let c ← Weights.conformalWeight w.dataType w.rOut
  let g := gamma (vabs (vec3 r.boost_velocity))
  let Rs := rotors r
  let cols ← Rs.mapM (column other r g w s c)
  let ts ← gridSlices g (constantFrom (r.supertranslation 0)).re w.t (Rs.map (direction r g))
  let new ← ((Rs.map (direction r g)).zip cols).mapM fun p => resample spline w.t ts p.1 p.2
  pure { t := ts, dataType := w.dataType, inertial := w.inertial, rOut := w.rOut, mOut := w.mOut, nTheta := r.n_theta.toNat, nPhi := r.n_phi.toNat,
         data := (List.range ts.length).map fun i => new.map fun col => col.getD i 0, frame := [] }

/-- `WaveformGrid.from_modes(w_modes, **kwargs)` (lines 331-613); `other` are the keywords `psi4_modes`, ... -/
noncomputable def fromModes (spline : List (ℝ × ℝ) → ℝ → ℝ) (other : Int → Option WModes) (w : WModes) (kw : Kw) : Py WGrid :=
  if w.inertial then do
    let r ← gridProcess w.ellMax kw
    evaluate spline other w r
  else .error .valueError

/-- `to_modes(ell_max, ell_min)` (lines 274-329); `map2salm grid nTheta nPhi s lmax`. -/
noncomputable def toModes (map2salm : List ℂ → Nat → Nat → Int → Int → Row ℂ) (g : WGrid) (ellMax ellMin : Option Int) : Py WModes := do
  let s ← Weights.spinWeight g.dataType
  let ellMax := ellMax.getD (((max g.nTheta g.nPhi : Nat) - 1 : Int) / 2)
  let ellMin := ellMin.getD |s|
  if ellMax < 0 then .error .valueError
  else if ellMin < 0 ∨ ellMin > ellMax then .error .valueError
  else if g.data.any fun row => row.length ≠ g.nTheta * g.nPhi then .error .valueError
  else pure { t := g.t, dataType := g.dataType, inertial := g.inertial, rOut := g.rOut, mOut := g.mOut, ellMin := ellMin, ellMax := ellMax,
              data := g.data.map fun grid => fun i => map2salm grid g.nTheta g.nPhi s ellMax (i + lmIndex ellMin (-ellMin) 0), frame := [] }

/-- `WaveformGrid.transform(w_modes, **kwargs)` (lines 616-630); `ellMax` is the keyword `ell_max`. -/
noncomputable def transform (spline : List (ℝ × ℝ) → ℝ → ℝ) (map2salm : List ℂ → Nat → Nat → Int → Int → Row ℂ) (other : Int → Option WModes) (w : WModes) (ellMax : Option Int) (kw : Kw) : Py WModes := do
  let g ← fromModes spline other w kw
  toModes map2salm g (some (ellMax.getD w.ellMax)) none

end Verif.GridModes
