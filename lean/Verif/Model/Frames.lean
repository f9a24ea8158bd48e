import Verif.Model.Align
import Mathlib.Analysis.SpecialFunctions.Log.Base

/-!
# Model of `to_coprecessing_frame`, `to_corotating_frame` (`scri/rotations.py`) and `corotating_frame` (`scri/mode_calculations.py`)

Arithmetic is exact.  Histories are left out.
-/

namespace Verif.Frames

open Verif Verif.Modes Verif.ModeCalc Verif.AbdTransform Verif.Align

/-- Functions from other packages.  `halfGamma R t` is the angle that one iteration of `quaternion.minimal_rotation` finds; `slowing R t i1` is the result of lines 41-43 of `scri/rotations.py`: the
rotors for the times `t`, starting from the first of `R`, whose angular velocity is damped to zero at `i1`.  `omega` is the result of `angular_velocity(W)`, `integrate t omega R0` the rotors
that `integrate_angular_velocity` finds for the times `t`.  `rint` is `np.round`. -/
structure Ext where
  align : Align.Ext
  halfGamma : List (Quaternion ℝ) → List ℝ → Nat → ℝ
  slowing : List (Quaternion ℝ) → List ℝ → Nat → List (Quaternion ℝ)
  omega : Wave → Py (List Vec)
  integrate : List ℝ → List Vec → Quaternion ℝ → List (Quaternion ℝ)
  maxNormTime : Wave → ℝ
  rint : ℝ → Int

/-- `quaternion.minimal_rotation(R, t, iterations=k)` (external): every iteration turns the rotors about the z axis. -/
noncomputable def minimalRotation (ext : Ext) (t : List ℝ) : Nat → List (Quaternion ℝ) → List (Quaternion ℝ)
  | 0, R => R
  | k + 1, R => minimalRotation ext t k ((List.range R.length).map fun i => R.getD i 1 * expZ (ext.halfGamma R t i))

/-- One step of `np.argmin`. -/
noncomputable def argminStep (g : Nat → ℝ) (best i : Nat) : Nat := open Classical in if g i < g best then i else best

/-- `np.argmin(np.abs(t - x))`: the first of the least values. -/
noncomputable def argmin (t : List ℝ) (x : ℝ) : Py Nat :=
  if t.isEmpty then .error .valueError
  else .ok ((List.range t.length).foldl (argminStep fun i => |t.getD i 0 - x|) 0)

/-- Lines 38-44: the rotors for the coprecessing frame from the dominant directions. -/
noncomputable def coprecessingRotors (ext : Ext) (t : List ℝ) (dpa : List Vec) (transition : Option (ℝ × ℝ)) : Py (List (Quaternion ℝ)) :=
  let R := minimalRotation ext t 3 (dpa.map fun q => rotorTo (normalized (vecQuat q)))
  match transition with
  | none => .ok R
  | some (a, b) => do
    let i0 ← argmin t a
    let i1 ← argmin t b
    pure (R.take i0 ++ ext.slowing (R.drop i0) (t.drop i0) i1)

/-- `to_coprecessing_frame(W, RoughDirection, RoughDirectionIndex, transition_times)` (`scri/rotations.py` lines 14-48): the result of the rotation, and the frame type.  An index outside of the
waveform is not modelled.  The data and the frame of the waveform are changed in place; an exception in `rotate_decomposition_basis` leaves the frame type as it was. -/
noncomputable def toCoprecessing (ext : Ext) (w : Wave) (rough : Vec) (idx : Option Nat) (transition : Option (ℝ × ℝ)) (D tmp : Row ℂ) : Py (Rotation.Wave × Int) := do
  let i := idx.getD (w.t.length / 8)
  let dpa := dominantVectors ext.align w.ellMin w.ellMax w.data rough i
  let R ← coprecessingRotors ext w.t dpa transition
  match rotateWave w (.arr (.vec R)) D tmp with
  | (W, none) => pure (W, coprecessingFrame)
  | (_, some e) => .error e

/-! ## Corotating frames -/

/-- `np.mean(l, axis=0)` for vectors. -/
noncomputable def meanVec (l : List Vec) : Vec := fun i => (l.map fun v => v i).sum / l.length

/-- `Ri.conjugate() * quaternion.quaternion(*Vhati) * Ri` (`scri/mode_calculations.py` line 481). -/
noncomputable def inFrame (R : Quaternion ℝ) (V : Vec) : Vec := vec (star R * vecQuat V * R)

/-- Lines 476-483 of `scri/mode_calculations.py`: the correction for the rows `i1` to `i2`.  (An empty region is not modelled: the code then reads outside of an array.) -/
noncomputable def correction (ext : Ext) (w : Wave) (frame : List (Quaternion ℝ)) (omega : List Vec) (i1 i2 : Nat) : Py (Quaternion ℝ) :=
  let R := slice frame i1 i2
  let i1m := (max 0 ((i1 : Int) - 10))
  do
    let rough ← pyGet omega (i1m + 10)
    if i2 ≤ i1 then .error .other
    else
      let V := dominantVectors ext.align w.ellMin w.ellMax (slice w.data i1 i2) rough 0
      let mean := normalized (vecQuat (meanVec (List.zipWith inFrame R V)))
      pure (sqrtQ (-vecQuat zHat * mean))⁻¹

/-- `corotating_frame(W, R0, tolerance, z_alignment_region, return_omega=True)` (`scri/mode_calculations.py` lines 434-489). -/
noncomputable def corotatingFrame (ext : Ext) (w : Wave) (R0 : Quaternion ℝ) (region : Option (ℝ × ℝ)) : Py (List (Quaternion ℝ) × List Vec) := do
  let omega ← ext.omega w
  let frame := ext.integrate w.t omega R0
  let c ← match region with
    | none => pure 1
    | some (a, b) => do
      let t0 ← pyGet w.t 0
      let inspiral := ext.maxNormTime w - t0
      let i1 ← argmin w.t (t0 + a * inspiral)
      let i2 ← argmin w.t (t0 + b * inspiral)
      correction ext w frame omega i1 i2
  let frame := frame.map (· * c)
  pure (frame.map fun F => (absQ F)⁻¹ • F, omega)

/-- `np.log(q)` for unit quaternions (external): a vector. -/
noncomputable def logQ (q : Quaternion ℝ) : Vec :=
  open Classical in
  let n := √(q.imI ^ 2 + q.imJ ^ 2 + q.imK ^ 2)
  if n = 0 then (if q.re < 0 then ![Real.pi, 0, 0] else 0) else (Complex.arg ⟨q.re, n⟩ / n) • vec q

/-- `np.exp` of a quaternion without scalar part (external). -/
noncomputable def expQ (v : Vec) : Quaternion ℝ :=
  open Classical in
  let n := √(v 0 ^ 2 + v 1 ^ 2 + v 2 ^ 2)
  if n = 0 then 1 else quat (Real.cos n) (Real.sin n / n * v 0) (Real.sin n / n * v 1) (Real.sin n / n * v 2)

/-- `power_of_2 = 2 ** int(-np.floor(np.log2(2 * tolerance)))` (line 86) -/
noncomputable def powerOf2 (tolerance : ℝ) : ℝ := 2 ^ (-⌊Real.logb 2 (2 * tolerance)⌋)

/-- `np.round(log_frame * power_of_2) / power_of_2` (line 87), for one rotor.  The scalar part of the logarithm of a unit rotor is zero and stays so. -/
noncomputable def truncLog (ext : Ext) (tolerance : ℝ) (v : Vec) : Vec := fun i => ext.rint (v i * powerOf2 tolerance) / powerOf2 tolerance

/-- The results of `to_corotating_frame`. -/
structure Corotated where
  wave : Rotation.Wave
  frameType : Int
  omega : Option (List Vec)
  logFrame : Option (List Vec)

/-- `to_corotating_frame(W, R0, tolerance, z_alignment_region, return_omega, truncate_log_frame)` (`scri/rotations.py` lines 51-105). -/
noncomputable def toCorotating (ext : Ext) (w : Wave) (R0 : Quaternion ℝ) (tolerance : ℝ) (region : Option (ℝ × ℝ)) (returnOmega truncate : Bool) (D tmp : Row ℂ) : Py Corotated := do
  let (frame, omega) ← corotatingFrame ext w R0 region
  let logs := frame.map fun F => truncLog ext tolerance (logQ F)
  let used := if truncate then logs.map expQ else frame
  match rotateWave w (.arr (.vec used)) D tmp with
  | (W, none) => pure ⟨W, 4, if returnOmega then some omega else none, if truncate then some logs else none⟩
  | (_, some e) => .error e

end Verif.Frames
