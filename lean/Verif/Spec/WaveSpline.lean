import Verif.Model.WaveSpline
import Verif.Spec.TimeSeries
import Verif.Spec.Slicing
import Verif.Spec.Rotation
import Mathlib.Algebra.Polynomial.Derivative
import Mathlib.Algebra.Polynomial.Eval.Degree

/-!
# What the interpolation of waveforms is (C100)
-/

namespace Verif.Spec.WaveSpline
open Verif.WaveSpline Verif.Slicing Verif.Spec.TimeSeries
open Verif.AbdTransform (expRotor)

/-- A direction, and the quaternion `a` times it. -/
def Unit3 (n : Fin 3 → ℝ) : Prop := n 0 ^ 2 + n 1 ^ 2 + n 2 ^ 2 = 1
def pureQuat (n : Fin 3 → ℝ) (a : ℝ) : Quaternion ℝ := ⟨0, a * n 0, a * n 1, a * n 2⟩

/-- What is assumed of the functions of other packages. -/
structure Good (ext : Ext) : Prop where
  /-- A spline is a smooth curve through the points, with its derivatives and integrals. -/
  curve : ∀ (t : List ℝ) (y : List ℂ), 2 ≤ t.length → t.Pairwise (· < ·) → y.length = t.length →
    ∃ f, Through t y f ∧ ∀ n : Int, -2 ≤ n → n ≤ 2 → ∀ s, ext.fit t y n s = applied (t.getD 0 0) f n s
  /-- It is the cubic (for three points the parabola, for two the line) if the points are on one. -/
  cubic : ∀ (t : List ℝ) (p : Polynomial ℂ), 2 ≤ t.length → t.Pairwise (· < ·) → p.natDegree < min 4 t.length → ∀ s, ext.fit t (t.map fun x : ℝ => p.eval (x : ℂ)) 0 s = p.eval (s : ℂ)
  /-- The logarithm of a rotor is half the angle (less than half a turn) times the direction. -/
  log_exp : ∀ n a, Unit3 n → |a| < Real.pi → ext.log (expRotor n a) = pureQuat n a
  exp_zero : ext.exp 0 = 1
  slerp_zero : ∀ a b, ext.slerp a b 0 = a
  slerp_self : ∀ a τ, ext.slerp a a τ = a
  /-- `slerp` goes along the arc of a rotation by less than half a turn. -/
  slerp_arc : ∀ a n x τ, Rotation.UnitRotor a → Unit3 n → |x| < Real.pi / 2 → ext.slerp a (a * expRotor n x) τ = a * expRotor n (τ * x)

/-- A waveform that can be interpolated: two or more increasing times, a row of data and a rotor for each (or no frame). -/
structure Proper (w : WM ℝ (Quaternion ℝ) ℂ) : Prop where
  two : 2 ≤ w.t.length
  inc : w.t.Pairwise (· < ·)
  rows : w.data.length = w.t.length
  cols : ∀ r ∈ w.data, r.length = w.nCols
  frame : w.frame = [] ∨ w.frame.length = w.t.length

/-- The item in row `k` and column `j`. -/
def item (data : List (List ℂ)) (k j : Nat) : ℂ := (data.getD k []).getD j 0

/-- `f` are smooth curves through the data, one for each column. -/
def Curves (w : WM ℝ (Quaternion ℝ) ℂ) (f : Nat → ℝ → ℂ) : Prop := ∀ j, ContDiff ℝ 2 (f j) ∧ ∀ k, k < w.t.length → f j (w.t.getD k 0) = item w.data k j

/-- `d` has the values of the functions at the times, and no other items. -/
def Sampled (d : List (List ℂ)) (n : Nat) (ts : List ℝ) (f : Nat → ℝ → ℂ) : Prop :=
  d.length = ts.length ∧ (∀ r ∈ d, r.length = n) ∧ ∀ k j, k < ts.length → j < n → item d k j = f j (ts.getD k 0)

/-- The energy flux of the field whose modes in the frame `R` are `c`, at the time `s`: the sum of the squared magnitudes of the derivatives of its modes in the inertial frame over `16 π`. -/
noncomputable def trueFlux (ellMin ellMax : Int) (R : ℝ → Quaternion ℝ) (c : ℝ → Int → Int → ℂ) (s : ℝ) : ℝ :=
  (∑ ell ∈ Finset.Icc ellMin ellMax, ∑ m ∈ Finset.Icc (-ell) ell, Complex.normSq (deriv (fun u => Rotation.rot ell (star (R u)) (c u ell) m) s)) / (16 * Real.pi)

end Verif.Spec.WaveSpline
