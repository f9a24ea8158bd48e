import Verif.Model.Modes
import Verif.Model.Weights
import Verif.Model.TransformKwargs
import Mathlib.Algebra.Quaternion
import Mathlib.Analysis.SpecialFunctions.Complex.Circle

/-!
# Model of the sample waveforms

`scri/sample_waveforms.py`.  `data` is a function of the number of the time and of the column.  Warnings about unused arguments are not modelled.
-/

namespace Verif.Samples
open Verif.Modes Verif.Weights

/-- What the constructors pass to `WaveformModes`. -/
structure Wave where
  t : List ℝ
  frame : List (Quaternion ℝ)
  data : Nat → Row ℂ
  history : List String
  frameType : Int
  dataType : Int
  rOut : Bool
  mOut : Bool
  ellMin : Int
  ellMax : Int

/-- `data[:, j] = f(data[:, j])` for an array with `n` columns: a negative `j` counts from the end. -/
def onColumn (n : Int) (data : Nat → Row ℂ) (j : Int) (f : Nat → ℂ → ℂ) : Py (Nat → Row ℂ) :=
  let k := if j < 0 then j + n else j
  if k < 0 ∨ n ≤ k then .error .indexError
  else .ok fun i => (data i).set k (f i (data i k))

/-- The keyword arguments of `modes_constructor` (lines 31-38). -/
structure Kwargs where
  t : Option (List ℝ) := none
  frame : Option (List (Quaternion ℝ)) := none
  frameType : Option Int := none
  dataType : Option Int := none
  rOut : Option Bool := none
  mOut : Option Bool := none
  ellMin : Option Int := none
  ellMax : Option Int := none

/-- `np.linspace(-10.0, 100.0, num=1101)` (line 31). -/
noncomputable def defaultTimes : List ℝ := (List.range 1101).map fun k : Nat => -10 + k / 10

/-- `modes_constructor` (lines 12-57). -/
noncomputable def modesConstructor (functor : List ℝ → List (Int × Int) → Py (Nat → Row ℂ)) (kw : Kwargs) : Py Wave := do
  let t := kw.t.getD defaultTimes
  let frame := kw.frame.getD []
  let frameType := kw.frameType.getD 1
  let dataType := kw.dataType.getD h
  let s ← pyGet SpinWeights dataType
  let ellMin := kw.ellMin.getD |s|
  let ellMax := kw.ellMax.getD 8
  let data ← functor t (LMRange ellMin ellMax)
  pure { t := t, frame := frame, data := data, history := ["# Called from constant_waveform"], frameType := frameType, dataType := dataType,
         rOut := kw.rOut.getD true, mOut := kw.mOut.getD true, ellMin := ellMin, ellMax := ellMax }

/-- `constant_waveform(**kwargs)` (lines 60-77). -/
noncomputable def constantWaveform (_kw : Kwargs) : Py Wave :=
  modesConstructor (fun _ LM => .ok fun _ j => if 0 ≤ j then match LM[j.toNat]? with | some p => (p.2 : ℂ) - Complex.I * p.2 | none => 0 else 0) {}

/-- `single_mode(ell, m, **kwargs)` (lines 80-101). -/
noncomputable def singleMode (ell m : Int) (_kw : Kwargs) : Py Wave :=
  modesConstructor (fun _ LM =>
    match (LM.map Prod.fst).min? with
    | none => .error .valueError
    | some ellMin => onColumn LM.length (fun _ _ => 0) (lmIndex ell m ellMin) fun _ _ => 1) {}

/-- The keyword arguments that the functions with one mode have in common (lines 222-231, 280-289, 328-337). -/
structure ModeArgs where
  s : Int := -2
  ell : Option Int := none
  m : Option Int := none
  ellMin : Option Int := none
  ellMax : Option Int := none
  dataType : Option Int := none
  t0 : ℝ := -20
  t1 : ℝ := 20
  dt : ℝ := 1 / 10

/-- `l.index(x)` -/
def pyIndex (l : List Int) (x : Int) : Py Int := match l.findIdx? (· == x) with
  | some i => .ok i
  | none => .error .valueError

/-- `np.arange(a, b, d)` in exact arithmetic, for `d > 0`. -/
noncomputable def arange (a b d : ℝ) : List ℝ := (List.range ⌈(b - a) / d⌉.toNat).map fun k : Nat => a + k * d

/-- `sf.LM_total_size(ell_min, ell_max)` -/
def totalSize (ellMin ellMax : Int) : Int := ellMax * (ellMax + 2) - ellMin ^ 2 + 1

/-- `single_mode_constant_rotation` (lines 222-251) and `single_mode_proportional_to_time` (lines 280-309): one mode with the values `f` of the times. -/
noncomputable def oneMode (a : ModeArgs) (f : ℝ → ℂ) : Py Wave := do
  let ell := a.ell.getD |a.s|
  let m := a.m.getD (-ell)
  let ellMin := a.ellMin.getD |a.s|
  let ellMax := a.ellMax.getD 8
  let k ← pyIndex SpinWeights a.s
  let dataType := a.dataType.getD k
  let t := arange a.t0 (a.t1 + a.dt) a.dt
  let n := totalSize ellMin ellMax
  if n < 0 then .error .valueError else
  let data ← onColumn n (fun _ _ => 0) (lmIndex ell m ellMin) fun i _ => f (t.getD i 0)
  pure { t := t, frame := [], data := data, history := [], frameType := 1, dataType := dataType, rOut := true, mOut := true, ellMin := ellMin, ellMax := ellMax }

/-- `single_mode_constant_rotation` (lines 195-251). -/
noncomputable def singleModeRotation (a : ModeArgs) (omega : ℂ) : Py Wave := oneMode a fun t => Complex.exp (Complex.I * omega * t)

/-- `single_mode_proportional_to_time` (lines 254-309). -/
noncomputable def singleModeTime (a : ModeArgs) (beta : ℂ) : Py Wave := oneMode a fun t => beta * t

/-- `sf.Wigner3j(j_1, j_2, j_3, m_1, m_2, m_3)` (external). -/
abbrev ThreeJ := Int → Int → Int → Int → Int → Int → ℝ

/-- `addition` (lines 352-363). -/
noncomputable def addition (W : ThreeJ) (s ell m : Int) (beta a : ℂ) (ellpp mpp ellp : Int) : ℂ :=
  let mp := m + mpp
  let x := beta * a * ((√(((2 * ellpp + 1) * (2 * ell + 1) * (2 * ellp + 1)) / (4 * Real.pi)) : ℝ) : ℂ)
    * (W ellpp ell ellp 0 (-s) s : ℝ) * (W ellpp ell ellp mpp m (-mp) : ℝ)
  if (s + mp) % 2 = 1 then -x else x

/-- The body of the loops in lines 351-364, for one mode of the supertranslation. -/
noncomputable def addMode (W : ThreeJ) (s ell m ellMin ellMax : Int) (beta : ℂ) (a : ℂ) (p : Int × Int) (data : Nat → Row ℂ) : Py (Nat → Row ℂ) :=
  if a ≠ 0 then
    (pyRange ellMin (min ellMax (ell + p.1) + 1)).foldlM (fun data ellp =>
      if |m + p.2| ≤ ellp then
        onColumn (totalSize ellMin ellMax) data (lmIndex ellp (m + p.2) ellMin) fun _ x => x + addition W s ell m beta a p.1 p.2 ellp
      else .ok data) data
  else .ok data

/-- The argument `supertranslation` with `space_translation` (lines 342-349): the array and its largest `ell`.  (`np.resize` fills with zeros; `int(math.sqrt(n) - 1)` is exact
for lengths below `2^52`.) -/
noncomputable def superArg (super : List ℂ) (space : Option (ℝ × ℝ × ℝ)) : Py (List ℂ × Int) := do
  let l := match space with
    | none => super
    | some (x, y, z) =>
      let l := if super.length < 4 then super ++ List.replicate (4 - super.length) 0 else super
      let v := TransformKwargs.vectorAs x y z
      ((l.set 1 (-v.1)).set 2 (-v.2.1)).set 3 (-v.2.2)
  let ellMax : Int := (Nat.sqrt l.length : Int) - 1
  if ellMax * (ellMax + 2) + 1 ≠ l.length then .error .valueError else .ok (l, ellMax)

/-- `single_mode_proportional_to_time_supertranslated` (lines 312-380). -/
noncomputable def supertranslated (W : ThreeJ) (a : ModeArgs) (beta : ℂ) (super : List ℂ) (space : Option (ℝ × ℝ × ℝ)) : Py Wave := do
  let w ← singleModeTime a beta
  let (l, L) ← superArg super space
  let ell := a.ell.getD |a.s|
  let m := a.m.getD (-ell)
  let data ← ((LMRange 0 L).zip l).foldlM (fun data p => addMode W a.s ell m w.ellMin w.ellMax beta p.2 p.1 data) w.data
  pure { w with data := data }

/-! ## Waveforms at finite radius -/

/-- The arguments of `create_fake_finite_radius_strain_h5file` that concern the waveform (lines 596-613). -/
structure FakeArgs where
  t0 : ℝ := 0
  t1 : ℝ := 3000
  dt : ℝ := 1 / 10
  ellMax : Int := 8
  massRatio : ℝ := 1
  openingAngle : ℝ := 0

/-- The arguments of `fake_precessing_waveform` (lines 383-394). -/
structure PrecArgs where
  t0 : ℝ := -20
  t1 : ℝ := 20000
  dt : ℝ := 1 / 10
  ellMax : Int := 8
  massRatio : ℝ := 2
  openingAngle : ℝ := Real.pi / 6

/-- The call of `fake_precessing_waveform` (lines 701-703), without further `kwargs`. -/
noncomputable def precArgs (a : FakeArgs) : PrecArgs := { t0 := a.t0, t1 := a.t1, dt := a.dt, ellMax := a.ellMax, openingAngle := a.openingAngle }

/-- The loop over `n` for one radius, one mode and one time (lines 740-742).  `new_data` is a view of `h0.data`, so `h0.abs` is the absolute value of what has been added up so far.
`e n` is the exponential. -/
noncomputable def addTerms (amp : ℝ) (e : Nat → ℂ) (nSub : Nat) (R : ℝ) (x : ℂ) : ℂ :=
  (List.range nSub).foldl (fun x k => x + amp * ((R ^ (k + 1))⁻¹ : ℝ) * e (k + 1) * (‖x‖ : ℝ)) x

/-- The values of one mode at one time, for all radii in turn (lines 709-742): `h0.data` keeps what was added for the radii before. -/
noncomputable def fakeValues (amp : ℝ) (e : Nat → ℂ) (nSub : Nat) : List ℝ → ℂ → List ℂ
  | [], _ => []
  | R :: l, x => let y := addTerms amp e nSub R x; y :: fakeValues amp e nSub l y

end Verif.Samples
