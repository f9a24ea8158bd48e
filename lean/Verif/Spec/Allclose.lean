import Verif.Model.Allclose

/-!
# What it means that two attributes agree
-/

namespace Verif.Allclose.Spec

/-- The indices of an array. -/
def Index (shape idx : List Nat) : Prop := List.Forall₂ (· < ·) idx shape

/-- No nan. -/
def Finite : Val → Prop
  | .arr a => ∀ idx, Index a.shape idx → ∃ x, a.get idx = some x
  | _ => True

/-- Arrays of the same shape that agree within the tolerances. -/
def Near (rtol atol : ℝ) (a b : Arr) : Prop :=
  a.shape = b.shape ∧ ∀ idx, Index a.shape idx → ∃ x y, a.get idx = some x ∧ b.get idx = some y ∧ ‖x - y‖ ≤ atol + rtol * ‖y‖

/-- Arrays of rotors of the same shape, all of whose components agree within the tolerances. -/
def NearQ (rtol atol : ℝ) (a b : QuatArr) : Prop :=
  a.shape = b.shape ∧ ∀ idx, Index a.shape idx → ∀ part ∈ [QuaternionAlgebra.re, QuaternionAlgebra.imI, QuaternionAlgebra.imJ, QuaternionAlgebra.imK],
    |(part (a.get idx) : ℝ) - part (b.get idx)| ≤ atol + rtol * |part (b.get idx)|

/-- Python's `==`. -/
def PyEq : Plain → Plain → Prop
  | .bool a, .num b => (if a then 1 else 0) = b
  | .num a, .bool b => a = if b then 1 else 0
  | a, b => a = b

/-- The values agree. -/
def Agree (rtol atol : ℝ) : Val → Val → Prop
  | .arr a, .arr b => Near rtol atol a b
  | .quat a, .quat b => NearQ rtol atol a b
  | .plain a, .plain b => PyEq a b
  | _, _ => False

/-- Values of the same kind; arrays have the same shape. -/
def Alike : Val → Val → Prop
  | .arr a, .arr b => a.shape = b.shape
  | .quat a, .quat b => a.shape = b.shape
  | .plain _, .plain _ => True
  | _, _ => False

/-- The attributes that are compared: not the history, not the counters, not the exceptions. -/
def Compared (o : Opts) (key : String) : Prop := ¬ "__num".toList <:+ key.toList ∧ key ∉ o.exceptions ∧ key ≠ "history"

/-- One history is the beginning of the other. -/
def SameBeginning : Val → Val → Prop
  | .plain (.list a), .plain (.list b) => a <+: b ∨ b <+: a
  | _, _ => False

def IsList : Val → Prop
  | .plain (.list _) => True
  | _ => False

/-- A `__dict__`: every key once, and the histories are lists. -/
def Proper (w : Obj) : Prop := (w.dict.map (·.1)).Nodup ∧ (∀ v, w.dict.lookup "history" = some v → IsList v) ∧ ∀ v, w.dict.lookup "version_hist" = some v → ∃ x, v = .plain x

end Verif.Allclose.Spec
