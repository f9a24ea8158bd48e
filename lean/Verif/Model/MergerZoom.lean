import Mathlib.Data.Real.Basic
import Verif.Py.Basic

/-!
# Model of the `merger_zoom` scale of plots (`scri/plotting.py`)

One value of a float array; exact arithmetic.
-/

namespace Verif.MergerZoom
open Verif

open Classical in
/-- `numpy.piecewise` for one value: 0 where no condition holds, and the function of the last condition that holds. -/
noncomputable def piecewise (x : ℝ) (l : List (Prop × (ℝ → ℝ))) : ℝ := l.foldl (fun y p => if p.1 then p.2 x else y) 0

/-- The parameters of the scale. -/
structure Scale where
  stretch : ℝ
  tInitial : ℝ
  tMerger : ℝ
  tRingdown : ℝ
  tFinal : ℝ

open Classical in
/-- `WaveformTimeScale.__init__` (lines 13-21): `merger_stretch` has a default value, which is computed in any case. -/
noncomputable def make (tInitial tMerger tRingdown tFinal : ℝ) (stretch : Option ℝ) : Py Scale :=
  if tRingdown - tMerger = 0 then .error .zeroDivision
  else .ok ⟨stretch.getD (0.75 * (tFinal - tInitial) / (tRingdown - tMerger)), tInitial, tMerger, tRingdown, tFinal⟩

/-- `WaveformTimeTransform.transform_non_affine` (lines 66-75). -/
noncomputable def forward (c : Scale) (a : ℝ) : ℝ :=
  piecewise a
    [(a < c.tMerger, fun x => x), (a ≥ c.tMerger ∧ a < c.tRingdown, fun x => c.tMerger + c.stretch * (x - c.tMerger)),
      (a ≥ c.tRingdown, fun x => (c.stretch - 1) * (c.tRingdown - c.tMerger) + x)]

/-- `InvertedWaveformTimeTransform.transform_non_affine` (lines 98-114). -/
noncomputable def backward (c : Scale) (f : ℝ) : ℝ :=
  piecewise f
    [(f < c.tMerger, fun x => x),
      (f ≥ (1 - c.stretch) * c.tMerger + c.stretch * c.tMerger ∧ f < (1 - c.stretch) * c.tMerger + c.stretch * c.tRingdown, fun x => (x - (1 - c.stretch) * c.tMerger) / c.stretch),
      (f ≥ c.stretch * c.tRingdown - (c.stretch - 1) * c.tMerger, fun x => x - (c.stretch - 1) * (c.tRingdown - c.tMerger))]

/-- `limit_range_for_scale` (lines 47-48). -/
noncomputable def limits (c : Scale) (vmin vmax : ℝ) : ℝ × ℝ := (max vmin c.tInitial, min vmax c.tFinal)

end Verif.MergerZoom
