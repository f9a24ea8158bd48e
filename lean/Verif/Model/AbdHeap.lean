import Verif.Py.Basic
import Mathlib.Algebra.Quaternion
import Mathlib.Data.Complex.Basic

/-!
# Model of `AsymptoticBondiData` objects in memory

The constructor, the setters, `copy` and `interpolate` (`scri/asymptotic_bondi_data/__init__.py`), `ModesTimeSeries.time` and `ModesTimeSeries.interpolate` (`scri/modes_time_series.py`) and
`time_translation` (`scri/asymptotic_bondi_data/map_to_superrest_frame.py`).  Arrays are cells of a memory, so that two names can stand for the same array.
-/

namespace Verif.AbdHeap

open Verif

/-- An array with two axes. -/
structure Arr2 where
  rows : Nat
  cols : Nat
  get : Nat → Nat → ℂ

/-- The argument `multiplication_truncator`: `sum`, `max` or another function. -/
inductive Trunc where
  | sum
  | max
  | other (n : Nat)
  deriving DecidableEq

/-- An `AsymptoticBondiData` object.  `time` is where the array `_time` is, `cells k` where the data of the series with number `k` are (`psi0`, ..., `psi4`, `sigma`), and `stimes k` where the array
`_metadata["time"]` of this series is.  `_raw_data` itself is not used by other code and left out. -/
structure Obj where
  time : Nat
  cells : Fin 6 → Nat
  stimes : Fin 6 → Nat
  ellMax : Int
  trunc : Trunc
  frameType : Int
  frame : List (Quaternion ℝ)

/-- The memory: the arrays of times and the arrays of data (each with the next free place), and the objects the program has made. -/
structure State where
  times : Nat → List ℝ
  nt : Nat
  data : Nat → Arr2
  nd : Nat
  objs : List Obj

/-- `CubicSpline(times, data)(new_times)` and `quaternion.squad(frame, times, new_times)` (external). -/
structure Ext where
  spline : List ℝ → Arr2 → List ℝ → Py (Nat → Nat → ℂ)
  squad : List (Quaternion ℝ) → List ℝ → List ℝ → List (Quaternion ℝ)

/-- `np.zeros` with the shape of line 65: `LM_total_size(0, ell_max)` columns. -/
def zeros (n : Nat) (ellMax : Int) : Arr2 := ⟨n, ((ellMax + 1) ^ 2).toNat, fun _ _ => 0⟩

/-- `array[:] = new` for an array with one axis: the length must be the same, or 1. -/
def assign1 (old new : List ℝ) : Py (List ℝ) :=
  if new.length = old.length then .ok new
  else match new with
    | [x] => .ok (old.map fun _ => x)
    | _ => .error .valueError

/-- `array[:] = new` for an array with two axes. -/
def assign2 (old new : Arr2) : Py Arr2 :=
  if (new.rows = old.rows ∨ new.rows = 1) ∧ (new.cols = old.cols ∨ new.cols = 1) then
    .ok ⟨old.rows, old.cols, fun i j => new.get (if new.rows = old.rows then i else 0) (if new.cols = old.cols then j else 0)⟩
  else .error .valueError

/-- The new value of a cell. -/
def upd {α : Type} (f : Nat → α) (a : Nat) (x : α) : Nat → α := fun b => if b = a then x else f b

/-- `AsymptoticBondiData.__init__` (lines 36-75) for a list of times: the times are copied (line 68); the six series are views of one new array (lines 69-75), and refer to the same array of times
(`np.asarray(time).view(float)`, `modes_time_series.py` lines 32-45, makes no copy). -/
def construct (st : State) (time : List ℝ) (ellMax : Int) (trunc : Trunc) (frameType : Int) : State × Obj :=
  ({ st with times := upd st.times st.nt time, nt := st.nt + 1, data := fun a => if st.nd ≤ a ∧ a < st.nd + 6 then zeros time.length ellMax else st.data a, nd := st.nd + 6 },
   { time := st.nt, cells := fun k => st.nd + k, stimes := fun _ => st.nt, ellMax := ellMax, trunc := trunc, frameType := frameType, frame := [] })

/-- The result of a construction is given a name. -/
def named (r : State × Obj) : State := { r.1 with objs := r.1.objs ++ [r.2] }

/-- `abd.time = new` (lines 81-84). -/
def setTime (st : State) (o : Obj) (new : List ℝ) : Py State := do
  let x ← assign1 (st.times o.time) new
  pure { st with times := upd st.times o.time x }

/-- `abd.t -= t_0` (`map_to_superrest_frame.py` line 584): the array is changed in place, then assigned to itself. -/
def shiftTime (st : State) (o : Obj) (t0 : ℝ) : State := { st with times := upd st.times o.time ((st.times o.time).map (· - t0)) }

/-- `abd.sigma = new` and the five like it (lines 114-117, 137-176). -/
def setSeries (st : State) (o : Obj) (k : Fin 6) (new : Arr2) : Py State := do
  let x ← assign2 (st.data (o.cells k)) new
  pure { st with data := upd st.data (o.cells k) x }

/-- `abd.sigma.time = new` (`modes_time_series.py` lines 59-62). -/
def setSeriesTime (st : State) (o : Obj) (k : Fin 6) (new : List ℝ) : Py State := do
  let x ← assign1 (st.times (o.stimes k)) new
  pure { st with times := upd st.times (o.stimes k) x }

/-- `abd.copy()` (lines 178-184): the attributes are deep copies.  The copy of a series is a new array whose `_metadata` is a shallow copy (`Modes.__array_finalize__`, external): its
`"time"` is the same array as before. -/
def copyObj (st : State) (o : Obj) : State × Obj :=
  ({ st with times := upd st.times st.nt (st.times o.time), nt := st.nt + 1,
             data := fun a => if h : st.nd ≤ a ∧ a < st.nd + 6 then st.data (o.cells ⟨a - st.nd, by omega⟩) else st.data a, nd := st.nd + 6 },
   { o with time := st.nt, cells := fun k => st.nd + k })

/-- `new_abd.psi = self.psi.interpolate(new_times)` (lines 190-195): the spline goes through the times of the series. -/
def interpolateSeries (ext : Ext) (o new : Obj) (newTimes : List ℝ) (st : State) (k : Fin 6) : Py State := do
  let f ← ext.spline (st.times (o.stimes k)) (st.data (o.cells k)) newTimes
  setSeries st new k ⟨newTimes.length, (st.data (o.cells k)).cols, f⟩

/-- `abd.interpolate(new_times)` (lines 186-201).  `Inertial` is the default frame type. -/
def interpolate (ext : Ext) (inertial : Int) (st : State) (o : Obj) (newTimes : List ℝ) : Py (State × Obj) := do
  let (st, new) := construct st newTimes o.ellMax .sum inertial
  let new := { new with frameType := o.frameType }
  let st ← [5, 4, 3, 2, 1, 0].foldlM (interpolateSeries ext o new newTimes) st
  let new := if o.frame.length = (st.times o.time).length then { new with frame := ext.squad o.frame (st.times o.time) newTimes } else new
  pure (st, new)

/-- `time_translation(abd, t_0)` (`map_to_superrest_frame.py` lines 568-586). -/
def translate (inertial : Int) (st : State) (o : Obj) (t0 : ℝ) : Py (State × Obj) := do
  let (st, new) := construct st (st.times o.time) o.ellMax .sum inertial
  let st ← [5, 4, 3, 2, 1, 0].foldlM (fun st k => setSeries st new k (st.data (o.cells k))) st
  pure (shiftTime st new t0, new)

/-- A statement of a program that works with objects. -/
inductive Op where
  | new (time : List ℝ) (ellMax : Int) (trunc : Trunc) (frameType : Int)
  | setTime (i : Nat) (new : List ℝ)
  | shiftTime (i : Nat) (t0 : ℝ)
  | setSeries (i : Nat) (k : Fin 6) (new : Arr2)
  | setSeriesTime (i : Nat) (k : Fin 6) (new : List ℝ)
  | copy (i : Nat)
  | interpolate (i : Nat) (newTimes : List ℝ)
  | translate (i : Nat) (t0 : ℝ)

/-- The object with a number. -/
def State.obj (st : State) (i : Nat) : Py Obj := match st.objs[i]? with
  | some o => .ok o
  | none => .error .nameError

/-- What a statement does.  A statement that raises binds no name, and changes no array that has one. -/
def exec (ext : Ext) (inertial : Int) (st : State) : Op → Py State
  | .new time ellMax trunc frameType => .ok (named (construct st time ellMax trunc frameType))
  | .setTime i new => do setTime st (← st.obj i) new
  | .shiftTime i t0 => do pure (shiftTime st (← st.obj i) t0)
  | .setSeries i k new => do setSeries st (← st.obj i) k new
  | .setSeriesTime i k new => do setSeriesTime st (← st.obj i) k new
  | .copy i => do pure (named (copyObj st (← st.obj i)))
  | .interpolate i newTimes => do
    let r ← interpolate ext inertial st (← st.obj i) newTimes
    pure (named r)
  | .translate i t0 => do
    let r ← translate inertial st (← st.obj i) t0
    pure (named r)

/-- A program; it goes on after a statement that raises. -/
def run (ext : Ext) (inertial : Int) : State → List Op → State
  | st, [] => st
  | st, op :: rest => match exec ext inertial st op with
    | .ok st' => run ext inertial st' rest
    | .error _ => run ext inertial st rest

/-- No memory in use. -/
def start : State := { times := fun _ => [], nt := 0, data := fun _ => ⟨0, 0, fun _ _ => 0⟩, nd := 0, objs := [] }

/-- What can be observed of an object: `abd.t`, the six arrays, the times of the six series, and the rest. -/
structure View where
  time : List ℝ
  data : Fin 6 → Arr2
  stimes : Fin 6 → List ℝ
  ellMax : Int
  trunc : Trunc
  frameType : Int
  frame : List (Quaternion ℝ)

def look (st : State) (o : Obj) : View :=
  { time := st.times o.time, data := fun k => st.data (o.cells k), stimes := fun k => st.times (o.stimes k), ellMax := o.ellMax, trunc := o.trunc, frameType := o.frameType, frame := o.frame }

end Verif.AbdHeap
