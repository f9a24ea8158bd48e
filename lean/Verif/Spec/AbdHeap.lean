import Verif.Model.AbdHeap

/-!
# Specification of `AsymptoticBondiData` objects as values

No memory: each object has its times and its data.  The one thing that is not a value is where the times of its six series come from: the object with number `root`, which is the
object itself unless it is a copy.
-/

namespace Verif.Spec.AbdHeap

open Verif Verif.AbdHeap

structure VObj where
  time : List ℝ
  data : Fin 6 → Arr2
  root : Nat
  ellMax : Int
  trunc : Trunc
  frameType : Int
  frame : List (Quaternion ℝ)

/-- The number of modes up to `ell_max`. -/
def size (ellMax : Int) : Nat := ((ellMax + 1) ^ 2).toNat

/-- The times of the object with number `i`. -/
def timeOf (vs : List VObj) (i : Nat) : List ℝ := match vs[i]? with
  | some v => v.time
  | none => []

/-- What can be observed of an object. -/
def view (vs : List VObj) (v : VObj) : View :=
  { time := v.time, data := v.data, stimes := fun _ => timeOf vs v.root, ellMax := v.ellMax, trunc := v.trunc, frameType := v.frameType, frame := v.frame }

/-- New times for the object with number `i`. -/
def putTime (vs : List VObj) (i : Nat) (x : List ℝ) : List VObj := vs.modify i fun v => { v with time := x }

/-- All six series. -/
def splines (ext : Ext) (t : List ℝ) (v : VObj) (newTimes : List ℝ) : Py (Fin 6 → Nat → Nat → ℂ) := do
  let f5 ← ext.spline t (v.data 5) newTimes
  let f4 ← ext.spline t (v.data 4) newTimes
  let f3 ← ext.spline t (v.data 3) newTimes
  let f2 ← ext.spline t (v.data 2) newTimes
  let f1 ← ext.spline t (v.data 1) newTimes
  let f0 ← ext.spline t (v.data 0) newTimes
  pure ![f0, f1, f2, f3, f4, f5]

/-- What a statement does to the values. -/
def step (ext : Ext) (inertial : Int) (vs : List VObj) : Op → Py (List VObj)
  | .new time ellMax trunc frameType =>
    .ok (vs ++ [{ time := time, data := fun _ => ⟨time.length, size ellMax, fun _ _ => 0⟩, root := vs.length, ellMax := ellMax, trunc := trunc, frameType := frameType, frame := [] }])
  | .setTime i new => match vs[i]? with
    | none => .error .nameError
    | some v => do
      let x ← assign1 v.time new
      pure (putTime vs i x)
  | .shiftTime i t0 => match vs[i]? with
    | none => .error .nameError
    | some v => .ok (putTime vs i (v.time.map (· - t0)))
  | .setSeries i k new => match vs[i]? with
    | none => .error .nameError
    | some v => do
      let x ← assign2 (v.data k) new
      pure (vs.modify i fun v => { v with data := fun l => if l = k then x else v.data l })
  | .setSeriesTime i _ new => match vs[i]? with
    | none => .error .nameError
    | some v => do
      let x ← assign1 (timeOf vs v.root) new
      pure (putTime vs v.root x)
  | .copy i => match vs[i]? with
    | none => .error .nameError
    | some v => .ok (vs ++ [v])
  | .interpolate i newTimes => match vs[i]? with
    | none => .error .nameError
    | some v => do
      let f ← splines ext (timeOf vs v.root) v newTimes
      pure (vs ++ [{ time := newTimes, data := fun k => ⟨newTimes.length, size v.ellMax, f k⟩, root := vs.length, ellMax := v.ellMax, trunc := .sum, frameType := v.frameType,
                     frame := if v.frame.length = v.time.length then ext.squad v.frame v.time newTimes else [] }])
  | .translate i t0 => match vs[i]? with
    | none => .error .nameError
    | some v => .ok (vs ++ [{ time := v.time.map (· - t0), data := v.data, root := vs.length, ellMax := v.ellMax, trunc := .sum, frameType := inertial, frame := [] }])

def steps (ext : Ext) (inertial : Int) : List VObj → List Op → List VObj
  | vs, [] => vs
  | vs, op :: rest => match step ext inertial vs op with
    | .ok vs' => steps ext inertial vs' rest
    | .error _ => steps ext inertial vs rest

end Verif.Spec.AbdHeap
