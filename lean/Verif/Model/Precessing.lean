import Verif.Model.Samples
import Verif.Model.PnAmplitude
import Verif.Model.Transition
import Verif.Model.AbdFrame

/-!
# Model of `fake_precessing_waveform` (`scri/sample_waveforms.py` lines 383-533)

Arithmetic is exact, `dt` is positive and the mass ratio is positive.  An array with one item per time is a list.  `omega` and `phi` are not numbers after `t_merger`, and `omega` is infinite at it; the program drops what
is not a number before it looks for the item nearest to 0.25, the infinite item is never that item, and all these items are overwritten before they are used again.
-/

namespace Verif.Precessing
open Verif Verif.Modes Verif.Weights Verif.Samples Verif.Transition Verif.AbdFrame Verif.PnAmplitude

/-- The external functions: `indefinite_integral` and `sqrt` of a quaternion. -/
structure Ext where
  integral : List ℝ → List ℝ → Py (List ℝ)
  qsqrt : Quaternion ℝ → Quaternion ℝ

/-- The arguments (lines 383-394). -/
structure Args where
  t0 : ℝ := -20
  t1 : ℝ := 20000
  dt : ℝ := 1 / 10
  ellMax : Int := 8
  massRatio : ℝ := 2
  openingAngle : ℝ := Real.pi / 6
  openingDot : Option ℝ := none
  relativeRate : ℝ := 1 / 10
  nutationAngle : Option ℝ := none
  inertial : Bool := true

/-- `tau` (line 459). -/
noncomputable def tau (nu tMerger u : ℝ) : ℝ := nu * (tMerger - u) / 5

/-- `phi` (line 462). -/
noncomputable def phi0 (nu tMerger u : ℝ) : ℝ := -4 * tau nu tMerger u ^ ((5 : ℝ) / 8)

/-- `omega` (line 463). -/
noncomputable def omega0 (nu tMerger u : ℝ) : ℝ := nu / 2 * tau nu tMerger u ^ (-(3 : ℝ) / 8)

/-- The phase and the frequency (lines 458-475). -/
noncomputable def orbital (E : Ext) (nu tMerger : ℝ) (t : List ℝ) : Py (List ℝ × List ℝ) := do
  let i1 ← nearest ((t.filter fun u => 0 < tau nu tMerger u).map (omega0 nu tMerger)) (1 / 4)
  let ti1 ← pyGet t i1
  let i0 ← nearest t (ti1 - 5)
  let ti0 ← pyGet t i0
  let (tr, _, _) ← transitionFunction t ti0 ti1 0 1
  let omega := (List.range t.length).map fun k : Nat =>
    if k < i1 then omega0 nu tMerger (t.getD k 0) * (1 - tr.getD k 0) + 1 / 4 * tr.getD k 0 else 1 / 4
  let I ← E.integral (omega.drop i0) (t.drop i0)
  let phi := (List.range t.length).map fun k : Nat => if k < i0 then phi0 nu tMerger (t.getD k 0) else phi0 nu tMerger ti0 + I.getD (k - i0) 0
  pure (phi, omega)

/-- What is used of the transition to the ringdown. -/
structure Ring where
  t0 : ℝ
  t1 : ℝ
  transition : List ℝ
  ringdown : List ℝ

/-- The transition to the ringdown (lines 477-486). -/
noncomputable def ring (tMerger : ℝ) (t : List ℝ) : Py Ring := do
  let i0 ← nearest t tMerger
  let t0 ← pyGet t i0
  let i1 ← nearest t (t0 + 20)
  let t1 ← pyGet t i1
  let (tr, _, _) ← transitionFunction t t0 t1 0 1
  let ringdown := (List.range t.length).map fun k : Nat =>
    if k < i0 then 1 else 1 * (1 - tr.getD k 0) + 9 / 4 * Real.exp (-(t.getD k 0 - tMerger) / (23 / 2)) * tr.getD k 0
  pure { t0 := t0, t1 := t1, transition := tr, ringdown := ringdown }

/-- `np.exp(a * quaternion.z / 2)` (external). -/
noncomputable def expZ (a : ℝ) : Quaternion ℝ := ⟨Real.cos (a / 2), 0, 0, Real.sin (a / 2)⟩

/-- `np.exp(a * quaternion.x / 2)` (external). -/
noncomputable def expX (a : ℝ) : Quaternion ℝ := ⟨Real.cos (a / 2), Real.sin (a / 2), 0, 0⟩

/-- One item of `frame` (lines 493-503), before the factor from the left: the angles are those of the orbit, the nutation, the precession and the opening. -/
noncomputable def frameAt (orb nut prec op : ℝ) : Quaternion ℝ :=
  expZ orb * expX nut * star (expZ orb) * expZ prec * expX op * star (expZ prec) * expZ orb

/-- The frame (lines 488-504). -/
noncomputable def frame (E : Ext) (a : Args) (t phi : List ℝ) (r : Ring) : Py (List (Quaternion ℝ)) := do
  let first ← pyGet t 0
  let dot := a.openingDot.getD (2 * a.openingAngle / (r.t1 - first))
  let nut := a.nutationAngle.getD (a.openingAngle / 10)
  let op ← transitionToConstant E.integral (t.map fun u => a.openingAngle + dot * u) t r.t0 r.t1
  let prec ← transitionToConstant E.integral (phi.map fun p => p / a.relativeRate) t r.t0 r.t1
  let frame := (List.range t.length).map fun k : Nat => frameAt (phi.getD k 0) (nut * r.transition.getD k 0) (prec.getD k 0) (op.getD k 0)
  let f0 ← pyGet frame 0
  pure (frame.map fun f => star (E.qsqrt f0) * f)

/-- The columns of `data` (lines 507-513). -/
noncomputable def fill (n : Int) (omega modulation : List ℝ) (q : ℝ) (LM : List (Int × Int)) (data : Nat → Row ℂ) : Py (Nat → Row ℂ) :=
  LM.foldlM (fun data p => onColumn n data (lmIndex p.1 p.2 2) fun k _ =>
    amplitude p.1 p.2 (omega.getD k 0 ^ ((2 : ℝ) / 3)) q * ((1 + (p.2.sign : ℝ) * modulation.getD k 0 : ℝ) : ℂ)) data

/-- The waveform in the corotating frame (lines 442-528). -/
noncomputable def corotating (E : Ext) (a : Args) : Py Wave := do
  let q := if a.massRatio < 1 then 1 / a.massRatio else a.massRatio
  let nu := q / (1 + q) ^ 2
  let t := arange a.t0 (a.t1 + 99 / 100 * a.dt) a.dt
  let tMerger := a.t1 - 100
  let iMerger ← nearest t tMerger
  if iMerger < 20 then .error .valueError else
  let n := totalSize 2 a.ellMax
  if n < 0 then .error .valueError else
  let (phi, omega) ← orbital E nu tMerger t
  let r ← ring tMerger t
  let frame ← frame E a t phi r
  let (tr, _, _) ← transitionFunction t r.t0 r.t1 1 0
  let modulation := List.zipWith (fun x p => x * Real.cos p / 40) tr phi
  let data ← fill n omega modulation q (LMRange 2 a.ellMax) fun _ _ => 0
  pure { t := t, frame := frame, data := fun k j => data k j * ((r.ringdown.getD k 0 : ℝ) : ℂ), history := [], frameType := 4, dataType := h, rOut := true, mOut := true, ellMin := 2, ellMax := a.ellMax }

/-- `fake_precessing_waveform` (lines 442-533); `toInertial` is the method `to_inertial_frame`. -/
noncomputable def fakePrecessing (E : Ext) (toInertial : Wave → Py Wave) (a : Args) : Py Wave := do
  let w ← corotating E a
  if a.inertial then toInertial w else pure w

end Verif.Precessing
