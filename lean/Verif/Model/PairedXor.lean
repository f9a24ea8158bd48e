import Verif.Model.Xor
import Verif.Model.Fletcher
import Verif.Model.Weights

/-!
# Model of `scri/SpEC/file_io/corotating_paired_xor.py`

Numbers are their 64-bit words.  Arithmetic on them (`Arith`) is a parameter: no property of it is used except that it keeps the shapes of arrays.
-/

namespace Verif.PairedXor

open Verif.Xor Verif.Fletcher

/-- `scri.FrameType` (`scri/__init__.py` lines 78-79). -/
inductive FrameType
  | unknown | inertial | coprecessing | coorbital | corotating
  deriving DecidableEq

/-- The part of a `WaveformModes` that the format knows about.  `Q` is the type of rotors. -/
structure Wave (Q : Type) where
  t : List Row
  frame : List Q
  data : List Row
  frameType : FrameType
  dataType : Int
  mIsScaledOut : Bool
  rIsScaledOut : Bool
  ellMin : Int
  ellMax : Int

/-- What the two functions call: `convert_to_conjugate_pairs` and its inverse, `truncate`, the addition of `0.0`,
`quaternion.as_float_array(np.log(frame))[:, 1:]`, `np.exp(as_quat_array(np.insert(log_frame, 0, 0.0, axis=1)))`,
the rounding of `log_frame` (lines 79-80), and `to_corotating_frame`, which returns `log_frame` without its first column. `T` is the type of tolerances. -/
structure Arith (Q T : Type) where
  toPairs : Int → Int → List Row → List Row
  fromPairs : Int → Int → List Row → List Row
  truncate : T → List Row → List Row
  plusZero : BitVec 64 → BitVec 64
  log : List Q → List Row
  exp : List Row → List Q
  roundLog : T → List Row → List Row
  toCorotating : Wave Q → Py (Wave Q × List Row)

/-- The datasets of the H5 file. -/
inductive Dataset
  | time | modes | logFrame
  deriving DecidableEq

/-- The H5 file (lines 101-112); `size` is its size on the disk. -/
structure H5 where
  format : String
  time : List Row
  modes : List Row
  ellMin : Int
  ellMax : Int
  logFrame : Option (List Row)
  size : Nat

/-- The JSON file (lines 124-160), as far as `load` reads it.  Files with missing keys are not modelled. -/
structure Json where
  format : String
  dataType : String
  h5Size : Nat
  nTimes : Nat
  checksums : List (Dataset × Nat)

structure Files where
  h5 : H5
  json : Option Json

def mapWords (f : BitVec 64 → BitVec 64) (u : List Row) : List Row := u.map (List.map f)

/-- `array.view(np.uint16)` on a little-endian machine, flattened. -/
def words16 (u : List Row) : List Nat :=
  u.flatten.flatMap fun w => [w.toNat % 2 ^ 16, w.toNat / 2 ^ 16 % 2 ^ 16, w.toNat / 2 ^ 32 % 2 ^ 16, w.toNat / 2 ^ 48]

/-- `fletcher32(f[name][:])`. -/
def checksum (u : List Row) : Nat := fletcher32 (words16 u)

/-- `array.size`. -/
def size (u : List Row) : Nat := u.flatten.length

variable {Q T : Type} [DecidableEq T] [Zero T]

/-- The waveform in its corotating frame and `log_frame` (lines 52-68). -/
def corotating (A : Arith Q T) (w : Wave Q) (logFrame : Option (List Row)) : Py (Wave Q × Option (List Row)) := do
  let (w, logFrame) ← if w.frameType = .inertial then do
      let (w, l) ← A.toCorotating w
      pure (w, some l)
    else pure (w, logFrame)
  if w.frameType ≠ .corotating then .error .valueError else pure (w, logFrame)

/-- What is written for the tolerance `tol` (lines 44-90). -/
def encode (A : Arith Q T) (w : Wave Q) (tol : T) (logFrame : Option (List Row)) : Py (Wave Q × List Row) :=
  if tol = 0 then .ok (w, A.log w.frame)
  else do
    let (w, logFrame) ← corotating A w logFrame
    let data := A.truncate tol (A.toPairs w.ellMin w.ellMax w.data)
    let l := logFrame.getD (A.roundLog tol (A.log w.frame))
    pure ({ w with t := xorTimeseries (mapWords A.plusZero w.t), data := xorTimeseries (mapWords A.plusZero data) },
      xorTimeseries (mapWords A.plusZero l))

/-- `save(w, file_name, L2norm_fractional_tolerance, log_frame, compress)` (lines 16-162).  `size` is the size the file happens to have. -/
def save (A : Arith Q T) (w : Wave Q) (tol : T) (logFrame : Option (List Row)) (h5Size : Nat) : Py Files := do
  let (w, l) ← encode A w tol logFrame
  let name ← pyGet Verif.Weights.DataNames w.dataType
  let lf := if size l > 1 then some l else none
  pure ⟨⟨"corotating_paired_xor", w.t, w.data, w.ellMin, w.ellMax, lf, h5Size⟩,
    some ⟨"corotating_paired_xor", name, h5Size, w.t.length,
      [(.time, checksum w.t), (.modes, checksum w.data)] ++ (lf.map fun l => (Dataset.logFrame, checksum l)).toList⟩⟩

/-- `invalid(message)` (lines 172-176). -/
def invalid (ignore : Bool) : Py Unit := if ignore then .ok () else .error .valueError

/-- `f[dataset][:]`. -/
def dataset (h5 : H5) : Dataset → Py (List Row)
  | .time => .ok h5.time
  | .modes => .ok h5.modes
  | .logFrame => match h5.logFrame with
    | some l => .ok l
    | none => .error .keyError

/-- The loop over the checksums (lines 224-227). -/
def checkSums (ignore : Bool) (h5 : H5) : List (Dataset × Nat) → Py Unit
  | [] => .ok ()
  | (name, sum) :: rest => do
    let u ← dataset h5 name
    if sum ≠ checksum u then invalid ignore else .ok ()
    checkSums ignore h5 rest

/-- `load` before the H5 file is opened (lines 184-206): `None` where `dataType` is not set. -/
def loadJson (ignore : Bool) (f : Files) : Py (Option Int) :=
  match f.json with
  | none => do invalid ignore; pure none
  | some j => do
    if j.dataType ∉ Verif.Weights.DataNames then .error .valueError else .ok ()
    if j.format ≠ "corotating_paired_xor" then invalid ignore else .ok ()
    if j.h5Size ≠ f.h5.size then invalid ignore else .ok ()
    pure (some (Verif.Weights.DataNames.idxOf j.dataType))

/-- The checks of lines 208-227. -/
def loadChecks (ignore : Bool) (f : Files) : Py Unit := do
  if f.h5.format ≠ "corotating_paired_xor" then .error .valueError else .ok ()
  if (f.json.map (·.nTimes)).getD 0 ≠ size f.h5.time then invalid ignore else .ok ()
  checkSums ignore f.h5 ((f.json.map (·.checksums)).getD [])

/-- `load(file_name, ignore_validation)` (lines 165-258). -/
def load (A : Arith Q T) (f : Files) (ignore : Bool) : Py (Wave Q) := do
  let dataType ← loadJson ignore f
  loadChecks ignore f
  match dataType with
  | none => .error .unboundLocal
  | some dt => pure ⟨xorTimeseriesReverse f.h5.time, A.exp (xorTimeseriesReverse (f.h5.logFrame.getD [])),
      A.fromPairs f.h5.ellMin f.h5.ellMax (xorTimeseriesReverse f.h5.modes), .corotating, dt, true, true, f.h5.ellMin, f.h5.ellMax⟩

end Verif.PairedXor
