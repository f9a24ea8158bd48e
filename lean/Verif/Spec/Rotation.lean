import Verif.Model.Rotation
import Mathlib.Order.Interval.Finset.Basic
import Mathlib.Data.Int.Interval
import Mathlib.Algebra.BigOperators.Intervals

/-!
# Specification of rotations of a waveform's modes
-/

namespace Verif.Spec.Rotation
open Verif.Modes Verif.Wigner Verif.Rotation

/-- `(ell, m)` is one of the modes of `W`, and `i` one of its times. -/
def HasMode (W : Wave) (i : Nat) (ell m : Int) : Prop :=
  i < W.data.length ∧ W.ellMin ≤ ell ∧ ell ≤ W.ellMax ∧ -ell ≤ m ∧ m ≤ ell

/-- The mode `(ell, m)` at time number `i`. -/
def mode (W : Wave) (i : Nat) (ell m : Int) : ℂ :=
  match W.data[i]? with
  | some row => row (lmIndex ell m W.ellMin)
  | none => 0

/-- Modes `f` of degree `ell` with respect to the basis rotated by `R`. -/
noncomputable def rot (ell : Int) (R : Quaternion ℝ) (f : Int → ℂ) (m : Int) : ℂ :=
  ∑ m' ∈ Finset.Icc (-ell) ell, f m' * Dlm ell R m' m

/-- Total power in degree `ell`. -/
noncomputable def power (ell : Int) (f : Int → ℂ) : ℝ := ∑ m ∈ Finset.Icc (-ell) ell, Complex.normSq (f m)

/-- A unit quaternion. -/
def UnitRotor (R : Quaternion ℝ) : Prop := Quaternion.normSq R = 1

/-- The rotor that a frame array gives for time number `i`: an absent frame means the identity, a
single rotor holds for all times. -/
noncomputable def frameOf (l : List (Quaternion ℝ)) (i : Nat) : Quaternion ℝ :=
  match l with
  | [] => 1
  | [R] => R
  | l => l.getD i 1

/-- The frame has one of the documented shapes: no rotor, one rotor, or one per time. -/
def Shaped (W : Wave) (l : List (Quaternion ℝ)) : Prop :=
  W.frame = .vec l ∧ (l.length = 0 ∨ l.length = 1 ∨ l.length = W.data.length)

/-- The mode `(ell, m)` at time `i` with respect to the inertial frame, if the stored frame is `l`. -/
noncomputable def inertial (W : Wave) (l : List (Quaternion ℝ)) (i : Nat) (ell m : Int) : ℂ :=
  rot ell (star (frameOf l i)) (mode W i ell) m

/-- Two waveforms with the same modes at the same times. -/
def SameModes (V W : Wave) : Prop :=
  V.ellMin = W.ellMin ∧ V.ellMax = W.ellMax ∧ V.data.length = W.data.length ∧
    ∀ i ell m, HasMode W i ell m → mode V i ell m = mode W i ell m

end Verif.Spec.Rotation
