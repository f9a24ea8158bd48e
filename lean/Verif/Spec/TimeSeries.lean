import Verif.Model.TimeSeries
import Mathlib.Analysis.Calculus.ContDiff.Defs
import Mathlib.MeasureTheory.Integral.IntervalIntegral.Basic

/-!
# What a series of modes in time is (C73)

A curve through the data: one twice continuously differentiable function for each mode.  Derivatives and integrals of the series are those of the curve.
-/

namespace Verif.Spec.TimeSeries

open Verif.TimeSeries
open scoped Interval

/-- `f` is a smooth curve through the points. -/
structure Through (t : List ℝ) (y : List ℂ) (f : ℝ → ℂ) : Prop where
  smooth : ContDiff ℝ 2 f
  passes : ∀ i : Nat, i < t.length → f (t.getD i 0) = y.getD i 0

/-- The operation that a series of orders stands for. -/
noncomputable def applied (start : ℝ) (f : ℝ → ℂ) : Int → ℝ → ℂ
  | 0 => f
  | 1 => deriv f
  | 2 => deriv (deriv f)
  | -1 => fun s => ∫ x in start..s, f x
  | -2 => fun s => ∫ x in start..s, ∫ y in start..x, f y
  | _ => fun _ => 0

/-- What is assumed of the external functions: splines are curves through the points, with the derivatives and integrals of these curves (integrals start at the first time), and
`spherical_functions.Modes` keeps complete labels and data that match. -/
structure Good (ext : Ext) : Prop where
  spline : ∀ (t : List ℝ) (y : List ℂ), 2 ≤ t.length → t.Pairwise (· < ·) → y.length = t.length →
    ∃ f, Through t y f ∧ ∀ n : Int, -2 ≤ n → n ≤ 2 → ∀ s, ext.fit t y n s = applied (t.getD 0 0) f n s
  keeps : ∀ (a : Arr) (l : Labels) (time : Option TimeArr), (a.cols : Int) = (l.ellMax + 1) ^ 2 - l.ellMin ^ 2 →
    ext.modes a { spin := some l.spin, ellMin := some l.ellMin, ellMax := some l.ellMax, trunc := some l.trunc, time := time } = .ok (l, a)

/-- A series that can be interpolated: at least two increasing times, a row of data for each, and as many columns as modes. -/
structure Proper (s : Series) : Prop where
  two : 2 ≤ s.time.length
  inc : s.time.Pairwise (· < ·)
  rows : s.arr.rows = s.time.length
  cols : (s.arr.cols : Int) = (s.labels.ellMax + 1) ^ 2 - s.labels.ellMin ^ 2

/-- The curves of a series, one for each mode. -/
def Curves (s : Series) (f : List Nat → Nat → ℝ → ℂ) : Prop := ∀ i j, Through s.time ((List.range s.arr.rows).map fun r => s.arr.get i r j) (f i j)

/-- `r` holds the values of the functions `g` at the times `t`, with the labels of `s`. -/
structure Sampled (s r : Series) (t : List ℝ) (g : List Nat → Nat → ℝ → ℂ) : Prop where
  time : r.time = t
  labels : r.labels = s.labels
  lead : r.arr.lead = s.arr.lead
  rows : r.arr.rows = t.length
  cols : r.arr.cols = s.arr.cols
  get : ∀ i k j, k < t.length → r.arr.get i k j = g i j (t.getD k 0)

end Verif.Spec.TimeSeries
