import Verif.Model.Phase

/-!
# What amplitudes and phases are (C102)
-/

namespace Verif.Spec.Phase
open Verif.Slicing

/-- A waveform: a row of data for each time, with an item for each mode. -/
structure Proper {Q : Type} (w : WM ℝ Q ℂ) : Prop where
  rows : w.data.length = w.t.length
  cols : ∀ r ∈ w.data, r.length = w.nCols

/-- `d` has a row for each time and a number for each mode. -/
def Shape {Q : Type} (w : WM ℝ Q ℂ) (d : List (List ℝ)) : Prop := d.length = w.t.length ∧ ∀ r ∈ d, r.length = w.nCols

/-- The item of the mode number `j` at the time number `k`. -/
def item {α : Type} [Zero α] (data : List (List α)) (k j : Nat) : α := (data.getD k []).getD j 0

/-- The mode number `j` has the amplitude `A k` and the phase `P k` at the time number `k`, the amplitude does not vanish and the phase moves by less than half a turn from one time to the next. -/
structure Follows {Q : Type} (w : WM ℝ Q ℂ) (j : Nat) (A P : Nat → ℝ) : Prop where
  value : ∀ k, k < w.t.length → item w.data k j = A k * Complex.exp (P k * Complex.I)
  pos : ∀ k, k < w.t.length → 0 < A k
  slow : ∀ k, k + 1 < w.t.length → |P (k + 1) - P k| < Real.pi

end Verif.Spec.Phase
