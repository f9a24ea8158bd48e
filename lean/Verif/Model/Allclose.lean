import Verif.Py.Basic
import Mathlib.Algebra.Quaternion
import Mathlib.Analysis.Complex.Basic

/-!
# Model of `WaveformBase._allclose` (`scri/waveform_base.py` lines 849-913)

The warnings are left out.  Arithmetic is exact; elements of arrays are numbers or nan (infinities are not modelled).
-/

namespace Verif.Allclose

open Verif

/-- An array of numbers.  `none` is nan.  Shape and indices are in reversed order (last axis first). -/
structure Arr where
  shape : List Nat
  get : List Nat → Option ℂ

/-- An array of quaternions. -/
structure QuatArr where
  shape : List Nat
  get : List Nat → Quaternion ℝ

/-- `quaternion.as_float_array` (external): a last axis with the four components is added. -/
noncomputable def QuatArr.asFloat (a : QuatArr) : Arr where
  shape := 4 :: a.shape
  get := fun
    | k :: idx => some (((match k with
      | 0 => (a.get idx).re
      | 1 => (a.get idx).imI
      | 2 => (a.get idx).imJ
      | _ => (a.get idx).imK : ℝ)) : ℂ)
    | [] => none

/-- Values that are not arrays. -/
inductive Plain where
  | num (n : Int)
  | bool (b : Bool)
  | str (s : String)
  | list (l : List String)
  deriving DecidableEq

/-- `==` of such values (`True == 1` in python). -/
def Plain.eq : Plain → Plain → Bool
  | .num a, .num b => a = b
  | .num a, .bool b => a = b.toInt
  | .bool a, .num b => a.toInt = b
  | .bool a, .bool b => a = b
  | .str a, .str b => a = b
  | .list a, .list b => a = b
  | _, _ => false

/-- The value of an attribute. -/
inductive Val where
  | arr (a : Arr)
  | quat (a : QuatArr)
  | plain (x : Plain)

/-- An object: its type and its `__dict__`. -/
structure Obj where
  type : String
  dict : List (String × Val)

/-- The numpy rules for shapes that are combined (external): axes of length 1 are repeated. -/
def broadcastShape : List Nat → List Nat → Option (List Nat)
  | [], b => some b
  | a, [] => some a
  | x :: a, y :: b => do
    let r ← broadcastShape a b
    if x = y then some (x :: r)
    else if x = 1 then some (y :: r)
    else if y = 1 then some (x :: r)
    else none

/-- The element of an array of the given shape that stands at an index of the combined shape. -/
def project : List Nat → List Nat → List Nat
  | x :: s, i :: idx => (if x = 1 then 0 else i) :: project s idx
  | _, _ => []

/-- `np.isclose` for one element. -/
noncomputable def close (rtol atol : ℝ) : Option ℂ → Option ℂ → Prop
  | some a, some b => ‖a - b‖ ≤ atol + rtol * ‖b‖
  | _, _ => False

open Classical in
/-- `np.allclose(a, b, rtol, atol)` (external). -/
noncomputable def npAllclose (rtol atol : ℝ) (a b : Arr) : Py Bool :=
  match broadcastShape a.shape b.shape with
  | none => .error .valueError
  | some s => .ok (decide (∀ idx, List.Forall₂ (· < ·) idx s → close rtol atol (a.get (project a.shape idx)) (b.get (project b.shape idx))))

/-- The keyword arguments. -/
structure Opts where
  reportAll : Bool := true
  rtol : ℝ := 1 / 10 ^ 10
  atol : ℝ := 1 / 10 ^ 10
  historyBeginnings : Bool := false
  exceptions : List String := []

/-- `obj.__dict__[key]` -/
def item (obj : Obj) (key : String) : Py Val := match obj.dict.lookup key with
  | some v => .ok v
  | none => .error .keyError

/-- `obj.key` -/
def getAttr (obj : Obj) (key : String) : Py Val := match obj.dict.lookup key with
  | some v => .ok v
  | none => .error .attributeError

/-- Lines 887-888: the beginnings of the two histories. -/
def beginnings : Val → Val → Py Bool
  | .plain (.list a), .plain (.list b) => .ok (a.take (min a.length b.length) = b.take (min a.length b.length))
  | _, _ => .error .typeError

/-- Line 892. -/
def plainEq : Val → Val → Py Bool
  | .plain a, .plain b => .ok (a.eq b)
  | _, _ => .error .valueError

/-- Lines 895-904 and 906.  An array compared with something that is not an array of the same kind is an error here; what numpy makes of it is not modelled. -/
noncomputable def sameVal (o : Opts) : Val → Val → Py Bool
  | .quat a, .quat b => npAllclose o.rtol o.atol a.asFloat b.asFloat
  | .arr a, .arr b => npAllclose o.rtol o.atol a b
  | .plain a, .plain b => .ok (a.eq b)
  | _, _ => .error .typeError

/-- Line 883. -/
def skipped (o : Opts) (key : String) : Bool := "__num".toList.isSuffixOf key.toList || o.exceptions.contains key

/-- The body of the loop (lines 885-910) for a key that is not skipped: whether no difference was found. -/
noncomputable def sameKey (o : Opts) (self other : Obj) (key : String) (val : Val) : Py Bool :=
  if key = "history" then
    if o.historyBeginnings then do
      let a ← getAttr self "history"
      let b ← getAttr other "history"
      beginnings a b
    else .ok true
  else if key = "version_hist" then do
    let a ← getAttr self "version_hist"
    let b ← getAttr other "version_hist"
    plainEq a b
  else do
    let b ← item other key
    sameVal o val b

/-- The loop (lines 882-913). -/
noncomputable def loop (o : Opts) (self other : Obj) : List (String × Val) → Bool → Py Bool
  | [], equality => .ok equality
  | (key, val) :: rest, equality =>
    if skipped o key then loop o self other rest equality
    else do
      let same ← sameKey o self other key val
      if ¬ o.reportAll ∧ ¬ (equality && same) then .ok false else loop o self other rest (equality && same)

/-- `self._allclose(other, ...)` (lines 876-913). -/
noncomputable def allclose (o : Opts) (self other : Obj) : Py Bool :=
  if self.type ≠ other.type then
    if ¬ o.reportAll then .ok false else loop o self other self.dict false
  else loop o self other self.dict true

end Verif.Allclose
