import Verif.Model.Slicing
import Verif.Model.Flux
import Verif.Model.AbdTransform

/-!
# Model of the interpolation, derivatives and integrals of waveforms

`scri/waveform_base.py` lines 690-704 (`data_dot`, `data_ddot`, `data_int`, `data_iint`), 825-847 (`copy_without_data`), 949-967 (`interpolate`); `scri/flux.py` lines 182-210 (`energy_flux` with the derivative it takes).
History is the subject of `Verif.Model.History`.
-/

namespace Verif.WaveSpline
open Verif.Slicing

/-- Functions of other packages.  `fit t y n s` is the `n`-th derivative at `s` of `scipy`'s `CubicSpline(t, y)`, or for `n < 0` the `-n`-th antiderivative; `log`, `exp` and `slerp a b tau` are those of `numpy-quaternion`. -/
structure Ext where
  fit : List ℝ → List ℂ → Int → ℝ → ℂ
  log : Quaternion ℝ → Quaternion ℝ
  exp : Quaternion ℝ → Quaternion ℝ
  slerp : Quaternion ℝ → Quaternion ℝ → ℝ → Quaternion ℝ

variable (ext : Ext)

/-- `data[:, j]` -/
def column (data : List (List ℂ)) (j : Nat) : List ℂ := data.map (·.getD j 0)

open Classical in
/-- `CubicSpline(self.t, self.data)` and its derivatives and antiderivatives at the times `ts`; `ValueError` unless there are two or more increasing times, and a row for each. -/
noncomputable def spline {Q : Type} (w : WM ℝ Q ℂ) (n : Int) (ts : List ℝ) : Py (List (List ℂ)) :=
  if 2 ≤ w.t.length ∧ w.t.Pairwise (· < ·) ∧ w.data.length = w.t.length then
    .ok (ts.map fun s => (List.range w.nCols).map fun j => ext.fit w.t (column w.data j) n s)
  else .error .valueError

/-- `data_dot`, `data_ddot`, `data_int`, `data_iint` (`waveform_base.py` lines 690-704). -/
noncomputable def dataDot {Q : Type} (w : WM ℝ Q ℂ) : Py (List (List ℂ)) := spline ext w 1 w.t
noncomputable def dataDdot {Q : Type} (w : WM ℝ Q ℂ) : Py (List (List ℂ)) := spline ext w 2 w.t
noncomputable def dataInt {Q : Type} (w : WM ℝ Q ℂ) : Py (List (List ℂ)) := spline ext w (-1) w.t
noncomputable def dataIint {Q : Type} (w : WM ℝ Q ℂ) : Py (List (List ℂ)) := spline ext w (-2) w.t

/-! ## `quaternion.squad` of `numpy-quaternion` -/

/-- The rotor after number `i`; after the last one the last step is repeated. -/
noncomputable def nextRotor (R : List (Quaternion ℝ)) (i : Nat) : Quaternion ℝ :=
  if i + 1 < R.length then R.getD (i + 1) 0 else R.getD (R.length - 1) 0 * star (R.getD (R.length - 2) 0) * R.getD (R.length - 1) 0

/-- The time after number `i`. -/
noncomputable def nextTime (t : List ℝ) (i : Nat) : ℝ :=
  if i + 1 < t.length then t.getD (i + 1) 0 else t.getD (t.length - 1) 0 + (t.getD (t.length - 1) 0 - t.getD (t.length - 2) 0)

/-- The coefficients `A` of all intervals; first and last are the rotors. -/
noncomputable def coefA (R : List (Quaternion ℝ)) (t : List ℝ) (i : Nat) : Quaternion ℝ :=
  let r := fun k => R.getD k 0
  let s := fun k => t.getD k 0
  if i = 0 ∨ i + 1 = R.length then r i
  else r i * ext.exp (((0.25 : ℝ) : Quaternion ℝ) * (-ext.log (star (r i) * r (i + 1)) + (((s (i + 1) - s i) / (s i - s (i - 1)) : ℝ) : Quaternion ℝ) * ext.log (star (r (i - 1)) * r i)))

/-- The coefficients `B` of all intervals. -/
noncomputable def coefB (R : List (Quaternion ℝ)) (t : List ℝ) (i : Nat) : Quaternion ℝ :=
  let r := fun k => R.getD k 0
  let s := fun k => t.getD k 0
  if i + 2 < R.length then
    r (i + 1) * ext.exp (((-0.25 : ℝ) : Quaternion ℝ) * ((((s (i + 1) - s i) / (s (i + 2) - s (i + 1)) : ℝ) : Quaternion ℝ) * ext.log (star (r (i + 1)) * r (i + 2)) - ext.log (star (r i) * r (i + 1))))
  else nextRotor R i

open Classical in
/-- The interval: `t.searchsorted(s, side="right") - 1`, where `-1` is the last one. -/
noncomputable def interval (t : List ℝ) (s : ℝ) : Nat :=
  let k := (t.filter fun x => x ≤ s).length
  if k = 0 then t.length - 1 else k - 1

/-- The rotor at `s`. -/
noncomputable def squadAt (R : List (Quaternion ℝ)) (t : List ℝ) (s : ℝ) : Quaternion ℝ :=
  let i := interval t s
  let tau := (s - t.getD i 0) / (nextTime t i - t.getD i 0)
  ext.slerp (ext.slerp (R.getD i 0) (nextRotor R i) tau) (ext.slerp (coefA ext R t i) (coefB ext R t i) tau) (2 * tau * (1 - tau))

/-- `quaternion.squad(R, t, ts)`.  For one rotor `R_in[-2]` does not exist; otherwise the numbers of rotors and times have to agree. -/
noncomputable def squad (R : List (Quaternion ℝ)) (t ts : List ℝ) : Py (List (Quaternion ℝ)) :=
  if R = [] ∨ ts = [] then .ok []
  else if R.length = 1 then .error .indexError
  else if R.length ≠ t.length then .error .valueError
  else .ok (ts.map (squadAt ext R t))

/-- `interpolate(tprime)` (lines 949-967). -/
noncomputable def interpolate (w : WM ℝ (Quaternion ℝ) ℂ) (tprime : List ℝ) : Py (WM ℝ (Quaternion ℝ) ℂ) := do
  let frame ← squad ext w.frame w.t tprime
  let data ← spline ext w 0 tprime
  pure { w with t := tprime, frame := frame, data := data }

/-! ## `energy_flux` -/

/-- The waveform without its frame, which `Verif.Model.Flux` does not have. -/
def forget (w : WM ℝ (Quaternion ℝ) ℂ) : WM ℝ Unit ℂ := { t := w.t, frame := w.t.map fun _ => (), data := w.data, nCols := w.nCols, ellMin := w.ellMin, ellMax := w.ellMax }

/-- `energy_flux(h)` (`flux.py` lines 182-210): the derivative is `h.data_dot`. -/
noncomputable def energyFlux (dataType : Int) (w : WM ℝ (Quaternion ℝ) ℂ) : Py (List ℝ) :=
  if dataType = Weights.h then do
    let d ← dataDot ext w
    Flux.energyFlux dataType (fun v => { v with data := d }) (forget w)
  else Flux.energyFlux dataType id (forget w)

end Verif.WaveSpline
