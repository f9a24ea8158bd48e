import Verif.Model.Rotation
import Verif.Model.ModeCalc
import Verif.Model.Dominant
import Verif.Model.AbdTransform
import Mathlib.Analysis.SpecialFunctions.Complex.Arg

/-!
# Model of the functions that choose a frame from the modes

`to_coprecessing_frame`, `to_corotating_frame`, `get_alignment_of_decomposition_frame_to_modes`, `align_decomposition_frame_to_modes` (`scri/rotations.py`) and `corotating_frame`
(`scri/mode_calculations.py`).  Arithmetic is exact.  Histories are left out.
-/

namespace Verif.Align

open Verif Verif.Modes Verif.ModeCalc Verif.AbdTransform

abbrev Vec := Fin 3 → ℝ

/-- A `WaveformModes` whose frame is an array with one axis. -/
structure Wave where
  t : List ℝ
  ellMin : Int
  ellMax : Int
  data : List (Row ℂ)
  frame : List (Quaternion ℝ)
  frameType : Int

/-- `Coprecessing, Coorbital, Corotating` (`scri/__init__.py` line 78). -/
def coprecessingFrame : Int := 2
def coorbitalFrame : Int := 3
def corotatingFrame : Int := 4

/-! ## numpy-quaternion (external) -/

/-- `quaternion.quaternion(w, x, y, z)` -/
def quat (w x y z : ℝ) : Quaternion ℝ := ⟨w, x, y, z⟩

/-- `quaternion.x`, `quaternion.z` -/
def xHat : Vec := ![1, 0, 0]
def zHat : Vec := ![0, 0, 1]

/-- `np.abs(q)` -/
noncomputable def absQ (q : Quaternion ℝ) : ℝ := √(Quaternion.normSq q)

/-- `q.normalized()` -/
noncomputable def normalized (q : Quaternion ℝ) : Quaternion ℝ := (absQ q)⁻¹ • q

/-- `q.sqrt()`: the principal square root; for a negative number a multiple of `quaternion.x`. -/
noncomputable def sqrtQ (q : Quaternion ℝ) : Quaternion ℝ :=
  open Classical in
  if Quaternion.normSq q = 0 then 0
  else if absQ q + q.re = 0 then quat 0 (√(absQ q)) 0 0
  else
    let c := √(1 / 2 / (absQ q + q.re))
    quat ((absQ q + q.re) * c) (q.imI * c) (q.imJ * c) (q.imK * c)

/-- `quaternion(0, 0, 0, x).exp()` -/
noncomputable def expZ (x : ℝ) : Quaternion ℝ := quat (Real.cos x) 0 0 (Real.sin x)

/-- The vector part. -/
def vec (q : Quaternion ℝ) : Vec := ![q.imI, q.imJ, q.imK]

def dot (v w : Vec) : ℝ := v 0 * w 0 + v 1 * w 1 + v 2 * w 2

/-- Functions from other packages.  `weights times t`: the value at `t` of a cubic spline is the sum of the data with these weights.  `squad frames times t` is the interpolated frame.  `eigh M` is the
last column of the second result of `np.linalg.eigh(M)`, and `omega` the result of `angular_velocity` for rows `i1` to `i2` of the degree 2 part of the waveform in the inertial frame. -/
structure Ext where
  weights : List ℝ → ℝ → Nat → ℝ
  squad : List (Quaternion ℝ) → List ℝ → ℝ → Quaternion ℝ
  eigh : Mat ℝ → Vec
  omega : Wave → Nat → Nat → Py (List Vec)

/-! ## The dominant eigenvector -/

def toV (v : Vec) : Dominant.V := ⟨v 0, v 1, v 2⟩
def ofV (v : Dominant.V) : Vec := ![v.x, v.y, v.z]

/-- `LLDominantEigenvector(W, RoughDirection, RoughDirectionIndex)` (`scri/mode_calculations.py` lines 366-399) for the rows `data` with modes of degree `a` to `b`. -/
noncomputable def dominantVectors (ext : Ext) (a b : Int) (data : List (Row ℂ)) (rough : Vec) (idx : Int) : List Vec :=
  let dpa : Int → Dominant.V := fun i => match data[i.toNat]? with
    | some d => toV (ext.eigh (LLMatrix d (LMRange a b)))
    | none => ⟨0, 0, 0⟩
  (List.range data.length).map fun i : Nat => ofV (Dominant.dominant data.length dpa (toV rough) idx (i : Int))

/-- `(-V * quaternion.z).sqrt()` for the unit vector in the direction of `v` (`scri/rotations.py` lines 37, 197). -/
noncomputable def rotorTo (v : Quaternion ℝ) : Quaternion ℝ := sqrtQ (-v * vecQuat zHat)

/-! ## Alignment at an instant -/

/-- `(w.t <= t_fid).nonzero()[0][-1]` (line 171). -/
noncomputable def lastLe (t : List ℝ) (x : ℝ) : Py Nat :=
  match ((List.range t.length).filter fun i => decide (t.getD i 0 ≤ x)).getLast? with
  | some i => .ok i
  | none => .error .indexError

/-- Lines 171-175: the index near `t_fid`, and the rows around it. -/
noncomputable def window (t : List ℝ) (x : ℝ) : Py (Nat × Nat × Nat) := do
  let i ← lastLe t x
  let i := if i < t.length - 1 then i + 1 else i
  let i1 := if (i : Int) - 5 < 0 then 0 else i - 5
  let i2 := if i1 + 11 > t.length then t.length else i1 + 11
  pure (i, i1, i2)

/-- `list[i1:i2]` -/
def slice {α : Type} (l : List α) (i1 i2 : Nat) : List α := (l.take i2).drop i1

/-- The rows of a spline with these weights. -/
noncomputable def combine (wts : Nat → ℝ) (rows : List (Row ℂ)) : Row ℂ := fun k => ((List.range rows.length).map fun i => (wts i : ℂ) * (rows.getD i fun _ => 0) k).sum

/-- `w[i1:i2].copy().interpolate(np.array([t_fid]))` (line 191; `scri/waveform_base.py` lines 949-967): the row of data and the rotor.  A spline needs two points. -/
noncomputable def instant (ext : Ext) (w : Wave) (i1 i2 : Nat) (tFid : ℝ) : Py (Row ℂ × Quaternion ℝ) :=
  if (slice w.t i1 i2).length < 2 then .error .valueError
  else .ok (combine (ext.weights (slice w.t i1 i2) tFid) (slice w.data i1 i2), ext.squad (slice w.frame i1 i2) (slice w.t i1 i2) tFid)

/-- Lines 187-189: the angular velocity with respect to the frame.  (`w.frame.size` is the number of times here.) -/
noncomputable def omegaInFrame (w : Wave) (i : Nat) (omegaHat : Quaternion ℝ) : Py (Quaternion ℝ) :=
  if w.frame.length > 1 then do
    let R ← pyGet w.frame i
    pure (R⁻¹ * omegaHat * R)
  else if w.frame.length = 1 then do
    let R ← pyGet w.frame 0
    pure (R⁻¹ * omegaHat * R)
  else pure omegaHat

/-- `math.atan2(z.imag, z.real)` -/
noncomputable def phase (z : ℂ) : ℝ := z.arg

/-- Lines 195-224, for the dominant eigenvector `V_f`, with the modes `d` and the rotor `F` at the instant.  The modes of degree 2 are there (see below). -/
noncomputable def alignRotor (a b : Int) (d : Row ℂ) (F : Quaternion ℝ) (omegaHat : Quaternion ℝ) (Vf : Quaternion ℝ) (nHat : Vec) (D tmp : Row ℂ) : Quaternion ℝ :=
  open Classical in
  let V := if dot (vec omegaHat) (vec Vf) < 0 then -Vf else Vf
  let RV := rotorTo V
  let W := (Rotation.rotate ⟨a, b, [d], .vec [F]⟩ (.quat RV) D tmp).1
  let row := W.data.getD 0 fun _ => 0
  let R := RV * expZ (-(phase (row (lmIndex 2 2 W.ellMin)) - phase (row (lmIndex 2 (-2) W.ellMin))) / 8)
  if dot nHat (vec (F * R * vecQuat xHat * R⁻¹ * F⁻¹)) < 0 then R * expZ (Real.pi / 2) else R

/-- `get_alignment_of_decomposition_frame_to_modes(w, t_fid, nHat_t_fid, ell_max)` (`scri/rotations.py` lines 114-224).  `D` and `tmp` are the contents of new arrays.  An `ell_max` less than
`w.ell_min - 1` is not modelled. -/
noncomputable def getAlignment (ext : Ext) (w : Wave) (tFid : ℝ) (nHat : Vec) (ellMax : Option Int) (D tmp : Row ℂ) : Py (Quaternion ℝ) :=
  open Classical in
  if ¬ (w.frameType = coprecessingFrame ∨ w.frameType = coorbitalFrame ∨ w.frameType = corotatingFrame) then .error .valueError
  else if w.frame.length ≠ w.t.length then .error .valueError
  else match w.t.head?, w.t.getLast? with
    | some t0, some t1 =>
      if tFid < t0 ∨ tFid > t1 then .error .valueError
      else do
        let (i, i1, i2) ← window w.t tFid
        if 2 < w.ellMin ∨ 2 > w.ellMax then .error .valueError
        else do
          let om ← ext.omega w i1 i2
          let o ← pyGet om ((i : Int) - i1)
          let omegaHat ← omegaInFrame w i (normalized (vecQuat o))
          let (d, F) ← instant ext w i1 i2 tFid
          if ellMax.getD w.ellMax > w.ellMax then .error .valueError
          else do
            let v ← pyGet (dominantVectors ext w.ellMin (ellMax.getD w.ellMax) [d] zHat 0) 0
            pure (alignRotor w.ellMin w.ellMax d F omegaHat (normalized (vecQuat v)) nHat D tmp)
    | _, _ => .error .indexError

/-- `rotate_decomposition_basis` for a `Wave`. -/
noncomputable def rotateWave (w : Wave) (R : Rotation.RArg) (D tmp : Row ℂ) : Rotation.Wave × Option PyErr :=
  Rotation.rotate ⟨w.ellMin, w.ellMax, w.data, .vec w.frame⟩ R D tmp

/-- `align_decomposition_frame_to_modes(w, t_fid, nHat_t_fid, ell_max)` (`scri/rotations.py` lines 228-265): the rotated data and frame. -/
noncomputable def align (ext : Ext) (w : Wave) (tFid : ℝ) (nHat : Vec) (ellMax : Option Int) (D tmp D' tmp' : Row ℂ) : Py (Rotation.Wave × Option PyErr) := do
  let R ← getAlignment ext w tFid nHat ellMax D tmp
  pure (rotateWave w (.quat R) D' tmp')

end Verif.Align
