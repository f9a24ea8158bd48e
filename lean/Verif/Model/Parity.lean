import Verif.Model.Modes
import Mathlib.Analysis.Complex.Basic

/-!
# Model of the parity operations of `scri/waveform_modes.py` (lines 722-943)

One time sample of a waveform: a data row, the frame rotor at that time, the ell range, the
spin weight and whether the data type is known.  `W.data = np.empty_like(self.data)` gives an
uninitialised row, modelled by an arbitrary row `garbage`.
-/

namespace Verif.Parity
open Verif.Modes ComplexConjugate

/-- Components of a quaternion. -/
structure Quat where
  w : ℝ
  x : ℝ
  y : ℝ
  z : ℝ

/-- The part of a `WaveformModes` that the parity operations read or write. -/
structure Wave where
  known : Bool
  spin : Int
  ellMin : Int
  ellMax : Int
  row : Row ℂ
  frame : Quat

/-- `n_modes`, which is `n_data_sets` (`scri/waveform_base.py`, `data.shape[1]`), of a valid
object. -/
def Wave.nModes (W : Wave) : Nat := (LMRange W.ellMin W.ellMax).length

inductive Axis where
  | x | y | z | all
  deriving DecidableEq

/-- `np.x_parity_conjugate` etc. of the external package numpy-quaternion: reflecting along an
axis reverses the two vector components orthogonal to it (rotors are axial); reflecting along
all axes changes nothing. -/
def frameConj : Axis → Quat → Quat
  | .x, q => ⟨q.w, q.x, -q.y, -q.z⟩
  | .y, q => ⟨q.w, -q.x, q.y, -q.z⟩
  | .z, q => ⟨q.w, -q.x, -q.y, q.z⟩
  | .all, q => q

/-- `np.x_parity_symmetric_part` etc. (external). -/
def frameSym : Axis → Quat → Quat
  | .x, q => ⟨q.w, q.x, 0, 0⟩
  | .y, q => ⟨q.w, 0, q.y, 0⟩
  | .z, q => ⟨q.w, 0, 0, q.z⟩
  | .all, q => q

/-- `np.x_parity_antisymmetric_part` etc. (external). -/
def frameAnti : Axis → Quat → Quat
  | .x, q => ⟨0, 0, q.y, q.z⟩
  | .y, q => ⟨0, q.x, 0, q.z⟩
  | .z, q => ⟨0, q.x, q.y, 0⟩
  | .all, _ => ⟨0, 0, 0, 0⟩

/-- `[sf.LM_index(ell, m, ell_min) for m in range(-ell, ell + 1) if P m]` -/
def lmIndices (ell ellMin : Int) (P : Int → Bool) : List Int :=
  ((pyRange (-ell) (ell + 1)).filter P).map fun m => lmIndex ell m ellMin

/-- Loop of `x_parity_conjugate` (lines 737-741). -/
noncomputable def xRow (ellMin ellMax : Int) (garbage row : Row ℂ) : Row ℂ :=
  (pyRange ellMin (ellMax + 1)).foldl (fun out ell =>
    let idx := lmIndices ell ellMin fun m => m % 2 == 0
    let out := out.assign idx (idx.map fun i => conj (row i))
    let idx := lmIndices ell ellMin fun m => m % 2 != 0
    out.assign idx (idx.map fun i => -conj (row i))) garbage

/-- Line 790 of `y_parity_conjugate`. -/
noncomputable def yRow (row : Row ℂ) : Row ℂ := fun i => conj (row i)

/-- Loop of `z_parity_conjugate` (lines 845-851). -/
noncomputable def zRow (s ellMin ellMax : Int) (garbage row : Row ℂ) : Row ℂ :=
  (pyRange ellMin (ellMax + 1)).foldl (fun out ell =>
    if (ell + s) % 2 == 0 then
      let idx := lmIndices ell ellMin fun _ => true
      out.assign idx (idx.reverse.map fun i => conj (row i))
    else
      let idx := lmIndices ell ellMin fun _ => true
      out.assign idx (idx.reverse.map fun i => -conj (row i))) garbage

/-- Loop of `parity_conjugate` (lines 904-908). -/
noncomputable def allRow (s ellMin ellMax : Int) (garbage row : Row ℂ) : Row ℂ :=
  (pyRange ellMin (ellMax + 1)).foldl (fun out ell =>
    let idx := lmIndices ell ellMin fun m => (ell + s + m) % 2 == 0
    let out := out.assign idx (idx.reverse.map fun i => conj (row i))
    let idx := lmIndices ell ellMin fun m => (ell + s + m) % 2 != 0
    out.assign idx (idx.reverse.map fun i => -conj (row i))) garbage

/-- The data written by the four operations. -/
noncomputable def conjRow (ax : Axis) (garbage : Row ℂ) (W : Wave) : Row ℂ :=
  match ax with
  | .x => xRow W.ellMin W.ellMax garbage W.row
  | .y => yRow W.row
  | .z => zRow W.spin W.ellMin W.ellMax garbage W.row
  | .all => allRow W.spin W.ellMin W.ellMax garbage W.row

/-- `x_parity_conjugate` (lines 722-744), `y_...` (778-795), `z_...` (829-854), `parity_conjugate`
(888-911).  The first line `W = self[:, :0]` raises `ValueError` when the object has fewer than
two modes, because `WaveformBase.__getitem__` (`scri/waveform_base.py` lines 930-931) takes a
2-tuple only when `2 <= len(key) <= self.n_data_sets`. -/
noncomputable def conjugate (ax : Axis) (garbage : Row ℂ) (W : Wave) : Py Wave :=
  if W.known = false then .error .valueError
  else if ¬ 2 ≤ W.nModes then .error .valueError
  else .ok { W with row := conjRow ax garbage W, frame := frameConj ax W.frame }

/-- `x_parity_symmetric_part` (lines 746-755) and the three others. -/
noncomputable def symmetricPart (ax : Axis) (garbage : Row ℂ) (W : Wave) : Py Wave := do
  let V ← conjugate ax garbage W
  pure { V with row := fun i => 0.5 * (W.row i + V.row i), frame := frameSym ax W.frame }

/-- `x_parity_antisymmetric_part` (lines 757-766) and the three others. -/
noncomputable def antisymmetricPart (ax : Axis) (garbage : Row ℂ) (W : Wave) : Py Wave := do
  let V ← conjugate ax garbage W
  pure { V with row := fun i => 0.5 * (W.row i - V.row i), frame := frameAnti ax W.frame }

end Verif.Parity
