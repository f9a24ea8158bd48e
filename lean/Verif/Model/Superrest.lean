import Verif.Model.Rotation
import Verif.Model.Weights
import Verif.Model.Bms
import Verif.Model.ComMotion
import Verif.Model.Charges

/-!
# Model of the functions of `scri/asymptotic_bondi_data/map_to_superrest_frame.py` that are not loops

The conversions between kinds of modes, the operator `𝔇` and its inverse, and the transformations made from charges.  Arithmetic is exact.
-/

namespace Verif.Superrest

open Verif Verif.Modes Verif.Rotation

/-! ## The operator -/

/-- `row[lo:hi] *= v`.  (A slice that goes beyond the end is cut off by numpy; rows have no end here.) -/
noncomputable def scaleSlice (row : Row ℂ) (lo hi : Int) (v : ℂ) : Row ℂ := row.assign (pyRange lo hi) ((pyRange lo hi).map fun i => row i * v)

/-- The factor (lines 86-89). -/
noncomputable def factorD (ell : Int) : ℂ := if ell < 2 then 0 else ((ell + 2) * (ell + 1) * ell * (ell - 1)) / 4

/-- The factor of the inverse (lines 99-102). -/
noncomputable def factorDinv (ell : Int) : ℂ := if ell < 2 then 0 else 4 / ((ell + 2) * (ell + 1) * ell * (ell - 1))

/-- `𝔇(h, ell_max)` (lines 76-92). -/
noncomputable def opD (h : Row ℂ) (ellMax : Int) : Row ℂ :=
  (pyRange 0 (ellMax + 1)).foldl (fun r ell => scaleSlice r (lmIndex ell (-ell) 0) (lmIndex ell ell 0 + 1) (factorD ell)) h

/-- `𝔇inverse(h, ell_max)` (lines 95-105). -/
noncomputable def opDinv (h : Row ℂ) (ellMax : Int) : Row ℂ :=
  (pyRange 0 (ellMax + 1)).foldl (fun r ell => scaleSlice r (lmIndex ell (-ell) 0) (lmIndex ell ell 0 + 1) (factorDinv ell)) h

/-! ## Conversions -/

/-- A `ModesTimeSeries`.  Its rows start at `ell = 0`. -/
structure MTS where
  s : Int
  ellMax : Int
  t : List ℝ
  data : List (Row ℂ)

/-- A `WaveformModes`: the attributes that the conversions set or read. -/
structure WM where
  t : List ℝ
  w : Wave
  dataType : Int
  frameType : String
  rScaled : Bool
  mScaled : Bool

/-- `MT_to_WM(h_mts, dataType=dataType)` (lines 18-41, `sxs_version=False`). -/
def mtToWm (f : MTS) (dataType : Int := Weights.h) : WM where
  t := f.t
  w := { ellMin := |f.s|, ellMax := f.ellMax, data := f.data.map fun row i => row (i + lmIndex |f.s| (-|f.s|) 0), frame := .vec [] }
  dataType := dataType
  frameType := "Inertial"
  rScaled := true
  mScaled := true

/-- The constructor `sf.SWSH_modes.Modes` (external): the rows are padded with zeros to `ell = 0`, and modes with `ell < |s|` are set to 0. -/
noncomputable def modesNew (s ellMin : Int) (row : Row ℂ) : Row ℂ := fun i => if i < s ^ 2 ∨ i < ellMin ^ 2 then 0 else row (i - ellMin ^ 2)

/-- `WM_to_MT(h_wm)` (lines 55-73). -/
noncomputable def wmToMt (h : WM) : Py MTS := do
  let s ← Weights.spinWeight h.dataType
  pure { s := s, ellMax := h.w.ellMax, t := h.t, data := h.w.data.map (modesNew s h.w.ellMin) }

/-- `.bar` of `spherical_functions` (external): the modes of the conjugated function, `(-1)^(s+m) conj f(ell, -m)`.  Column `i` holds `ell = isqrt(i)`, `m = i - ell (ell + 1)`. -/
noncomputable def barRow (s : Int) (row : Row ℂ) : Row ℂ := fun i =>
  let ell := Int.sqrt i
  let m := i - ell * (ell + 1)
  (-1) ^ (s + m).natAbs * (starRingEnd ℂ) (row (lmIndex ell (-m) 0))

noncomputable def MTS.bar (f : MTS) : MTS := { f with s := -f.s, data := f.data.map (barRow f.s) }

/-- `c * f` for a number. -/
noncomputable def MTS.scale (c : ℂ) (f : MTS) : MTS := { f with data := f.data.map fun row i => c * row i }

/-! ## Rotation about the z axis -/

/-- An `AsymptoticBondiData`: its six series of modes. -/
structure ABD where
  ellMax : Int
  t : List ℝ
  sigma : List (Row ℂ)
  psi4 : List (Row ℂ)
  psi3 : List (Row ℂ)
  psi2 : List (Row ℂ)
  psi1 : List (Row ℂ)
  psi0 : List (Row ℂ)

/-- One of the series. -/
def ABD.mts (a : ABD) (s : Int) (data : List (Row ℂ)) : MTS := { s := s, ellMax := a.ellMax, t := a.t, data := data }

/-- `abd.h` (`asymptotic_bondi_data/__init__.py` lines 119-131). -/
noncomputable def ABD.h (a : ABD) : WM := mtToWm ((a.mts 2 a.sigma).bar.scale 2) Weights.h

/-- `W.rotate_physical_system(q)` on the waveform, an exception aside (there is none for a single rotor). -/
noncomputable def WM.rotatePhysical (h : WM) (q : Quaternion ℝ) (D tmp : Row ℂ) : WM := { h with w := (Rotation.rotatePhysical h.w (.quat q) D tmp).1 }

/-- Lines 597-601, 604-608 and 612-616 for one of the Weyl scalars: `MT_to_WM(0.5 * (-sqrt(2)) ** k * psi)`, the rotation, and `2 * (-1 / sqrt(2)) ** k * WM_to_MT(Psi)`. -/
noncomputable def rotatePsi (a : ABD) (q : Quaternion ℝ) (D tmp : Row ℂ) (k : Nat) (s : Int) (dataType : Int) (psi : List (Row ℂ)) : Py (List (Row ℂ)) := do
  let Psi := mtToWm ((a.mts s psi).scale ((1 / 2 * (-√2) ^ k : ℝ) : ℂ)) dataType
  let f ← wmToMt (Psi.rotatePhysical q D tmp)
  pure (f.scale ((2 * (-1 / √2) ^ k : ℝ) : ℂ)).data

/-- Lines 596, 603 and 611: the shear (line 596 computes the same as `abd.h`). -/
noncomputable def rotateSigma (a : ABD) (q : Quaternion ℝ) (D tmp : Row ℂ) : Py (List (Row ℂ)) := do
  let f ← wmToMt (a.h.rotatePhysical q D tmp)
  pure (f.bar.scale (1 / 2)).data

/-- `rotation(abd, phi)` (lines 589-618).  `D` and `tmp` are the contents of arrays made by `np.empty`. -/
noncomputable def rotation (a : ABD) (phi : ℝ) (D tmp : Row ℂ) : Py ABD := do
  let q : Quaternion ℝ := AbdTransform.expRotor ![0, 0, 1] (-phi / 2)
  let sigma ← rotateSigma a q D tmp
  let psi4 ← rotatePsi a q D tmp 4 (-2) Weights.psi4 a.psi4
  let psi3 ← rotatePsi a q D tmp 3 (-1) Weights.psi3 a.psi3
  let psi2 ← rotatePsi a q D tmp 2 0 Weights.psi2 a.psi2
  let psi1 ← rotatePsi a q D tmp 1 1 Weights.psi1 a.psi1
  let psi0 ← rotatePsi a q D tmp 0 2 Weights.psi0 a.psi0
  pure { a with sigma := sigma, psi4 := psi4, psi3 := psi3, psi2 := psi2, psi1 := psi1, psi0 := psi0 }

/-! ## Transformations from charges -/

/-- `q.normalized()` (external): division by the norm.  A quaternion 0 gives nan, which is `none`. -/
noncomputable def normalized (q : Quaternion ℝ) : Option (Quaternion ℝ) :=
  if Quaternion.normSq q = 0 then none else some ((√(Quaternion.normSq q))⁻¹ • q)

/-- `quaternion.z`. -/
def qz : Quaternion ℝ := ⟨0, 0, 0, 1⟩

/-- Lines 417-418: the rotor for a spin vector. -/
noncomputable def spinRotor (chi : Fin 3 → ℝ) : Option (Quaternion ℝ) := do
  let chi_f ← normalized (AbdTransform.vecQuat chi)
  normalized (1 - chi_f * qz)

/-- `rotation_from_spin_charge(chi, t)` (lines 407-419).  The rotor nan is rejected later: `np.linalg.svd` of a matrix with nan raises `LinAlgError`.  Here it is an error at once. -/
noncomputable def rotationFromSpin (chi : List (Fin 3 → ℝ)) (t : List ℝ) : Py Bms.BMS := do
  let c ← pyGet chi (ComMotion.argmin (t.map fun s => |s|))
  match spinRotor c with
  | none => .error .other
  | some q => Bms.bmsInit (some q) none none

/-- `np.polyfit(t, G, deg=1)` (external) for one component: slope and intercept of the least squares line. -/
noncomputable def polyfit (t G : List ℝ) : ℝ × ℝ :=
  let n : ℝ := t.length
  let St := t.sum
  let Stt := (t.map (· ^ 2)).sum
  let Sg := G.sum
  let Stg := ((t.zip G).map fun p => p.1 * p.2).sum
  let d := n * Stt - St ^ 2
  ((n * Stg - St * Sg) / d, (Stt * Sg - St * Stg) / d)

/-- `transformation_from_CoM_charge(G, t)` (lines 322-342).  The supertranslation is `-np.insert(vector_as_ell_1_modes(x), 0, 0)`, which is the function `- x · r` on the sphere. -/
noncomputable def transformationFromCom (G : Fin 3 → List ℝ) (t : List ℝ) : Py Bms.BMS :=
  let fit := fun i => polyfit t (G i)
  Bms.bmsInit none (some fun i => (fit i).1) (some { ell := 1, f := fun r => -((fit 0).2 * r 0 + (fit 1).2 * r 1 + (fit 2).2 * r 2) }) [.supertranslation, .boost_velocity, .frame_rotation]

end Verif.Superrest
