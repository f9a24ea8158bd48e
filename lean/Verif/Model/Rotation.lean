import Verif.Model.Modes
import Verif.Model.Wigner

/-!
# Model of `rotate_decomposition_basis` and `to_inertial_frame` (`scri/rotations.py`)

Arithmetic is exact: complex data are `ℂ`, rotors are real quaternions.  A waveform has one row of
modes for each time; `n_times` is the number of rows.
-/

namespace Verif.Rotation
open Verif.Modes Verif.Wigner

/-- `sf._linear_matrix_offset(ell, ell_min)`: where the matrix for `ell` starts when the matrices for
`ell_min, ell_min+1, ...` are stored one after the other (external package). -/
def matOffset (ell ellMin : Int) : Int := ((pyRange ellMin ell).map fun l => (2 * l + 1) ^ 2).sum

/-- The cells `(ell, i_mp, i_m)` in the order of storage. -/
def cells (ellMin ellMax : Int) : List (Int × Int × Int) :=
  (pyRange ellMin (ellMax + 1)).flatMap fun ell =>
    (pyRange 0 (2 * ell + 1)).flatMap fun i => (pyRange 0 (2 * ell + 1)).map fun j => (ell, i, j)

/-- Where a cell is stored. -/
def cellPos (ellMin : Int) (c : Int × Int × Int) : Int :=
  matOffset c.1 ellMin + (2 * c.1 + 1) * c.2.1 + c.2.2

/-- `sf._Wigner_D_matrices(R.a, R.b, ell_min, ell_max, D)`: the work array `D` is filled with the
matrices, row index `m'`, column index `m` (external package; called at `scri/rotations.py` lines 320
and 381). -/
noncomputable def fillD (R : Quaternion ℝ) (ellMin ellMax : Int) (D : Row ℂ) : Row ℂ :=
  (cells ellMin ellMax).foldl
    (fun D c => D.set (cellPos ellMin c) (Dlm c.1 R (c.2.1 - c.1) (c.2.2 - c.1))) D

/-- One pass of the loop over `ell` in `_rotate_decomposition_basis_by_constant`
(`scri/rotations.py` lines 357-367).  The state is the data row and the work array `tmp`. -/
noncomputable def constEll (D : Row ℂ) (ellMin : Int) (st : Row ℂ × Row ℂ) (ell : Int) : Row ℂ × Row ℂ :=
  let row := st.1
  let iData := ell ^ 2 - ellMin ^ 2
  let iD := matOffset ell ellMin
  let tmp := (pyRange 0 (2 * ell + 1)).foldl (fun tmp im => tmp.set im 0) st.2
  let tmp := (pyRange 0 (2 * ell + 1)).foldl (fun tmp imp =>
    (pyRange 0 (2 * ell + 1)).foldl (fun tmp im =>
      tmp.set im (tmp im + row (iData + imp) * D (iD + (2 * ell + 1) * imp + im))) tmp) tmp
  let row := (pyRange 0 (2 * ell + 1)).foldl (fun row im => row.set (iData + im) (tmp im)) row
  (row, tmp)

/-- `_rotate_decomposition_basis_by_constant(data, ell_min, ell_max, D, tmp)`
(`scri/rotations.py` lines 346-367): the loop over the times. -/
noncomputable def byConstant (ellMin ellMax : Int) (D : Row ℂ) : List (Row ℂ) → Row ℂ → List (Row ℂ)
  | [], _ => []
  | row :: data, tmp =>
    let st := (pyRange ellMin (ellMax + 1)).foldl (constEll D ellMin) (row, tmp)
    st.1 :: byConstant ellMin ellMax D data st.2

/-- One pass of the loop over `ell` in `_rotate_decomposition_basis_by_series`
(`scri/rotations.py` lines 382-392).  The state is the data row and `D`, whose first matrix row is
overwritten with the new data. -/
noncomputable def seriesEll (ellMin : Int) (st : Row ℂ × Row ℂ) (ell : Int) : Row ℂ × Row ℂ :=
  let row := st.1
  let iData := ell ^ 2 - ellMin ^ 2
  let iD := matOffset ell ellMin
  let D := (pyRange 0 (2 * ell + 1)).foldl (fun D im =>
    D.set (iD + im) ((pyRange 0 (2 * ell + 1)).foldl (fun s imp =>
      s + row (iData + imp) * D (iD + im + (2 * ell + 1) * imp)) 0)) st.2
  let row := (pyRange 0 (2 * ell + 1)).foldl (fun row im => row.set (iData + im) (D (iD + im))) row
  (row, D)

/-- `_rotate_decomposition_basis_by_series(data, R_basis, ell_min, ell_max, D)`
(`scri/rotations.py` lines 370-392): the loop over the times.  The caller has checked that there are
as many rotors as times. -/
noncomputable def bySeries (ellMin ellMax : Int) : List (Row ℂ) → List (Quaternion ℝ) → Row ℂ → List (Row ℂ)
  | row :: data, R :: Rs, D =>
    let st := (pyRange ellMin (ellMax + 1)).foldl (seriesEll ellMin) (row, fillD R ellMin ellMax D)
    st.1 :: bySeries ellMin ellMax data Rs st.2
  | _, _, _ => []

/-- A quaternion array of one or two dimensions. -/
inductive QArr where
  | vec (l : List (Quaternion ℝ))
  | mat (rows : List (List (Quaternion ℝ)))

/-- `A.size != 0` -/
def QArr.nonempty : QArr → Bool
  | .vec l => !l.isEmpty
  | .mat rows => rows.any fun r => !r.isEmpty

/-- `A.shape[0]`, which is also `len(A)` -/
def QArr.len : QArr → Nat
  | .vec l => l.length
  | .mat rows => rows.length

/-- `A * R` for a single quaternion `R` -/
noncomputable def QArr.mulQ (A : QArr) (R : Quaternion ℝ) : QArr :=
  match A with
  | .vec l => .vec (l.map (· * R))
  | .mat rows => .mat (rows.map fun r => r.map (· * R))

/-- `~A`, elementwise (numpy-quaternion): the inverse rotor, for unit rotors the conjugate. -/
noncomputable def QArr.inv : QArr → QArr
  | .vec l => .vec (l.map star)
  | .mat rows => .mat (rows.map fun r => r.map star)

/-- numpy's broadcast of two one-dimensional arrays for `*`: equal lengths, or one of them 1. -/
noncomputable def mulRow (l m : List (Quaternion ℝ)) : Py (List (Quaternion ℝ)) :=
  if l.length = m.length then .ok (List.zipWith (· * ·) l m)
  else match l, m with
    | [x], m => .ok (m.map (x * ·))
    | l, [y] => .ok (l.map (· * y))
    | _, _ => .error .valueError

/-- `A * np.array(Rs)`: numpy broadcasting along the last axis. -/
noncomputable def QArr.mulVec (A : QArr) (Rs : List (Quaternion ℝ)) : Py QArr :=
  match A with
  | .vec l => do pure (.vec (← mulRow l Rs))
  | .mat rows => do pure (.mat (← rows.mapM fun r => mulRow r Rs))

/-- `np.array([A * R for R in Rs])`; for a one-dimensional `A` the result has two dimensions.
(For a two-dimensional `A` it would have three, which is not modelled; the caller only gets here when
`A.shape[0] == 1`.) -/
noncomputable def QArr.stack (A : QArr) (Rs : List (Quaternion ℝ)) : Py QArr :=
  match A with
  | .vec l => .ok (.mat (Rs.map fun R => l.map (· * R)))
  | .mat _ => .error .other

/-- What can be passed as `R_basis`: a quaternion, a list of quaternions, a quaternion array, or
something else. -/
inductive RArg where
  | quat (R : Quaternion ℝ)
  | list (l : List (Quaternion ℝ))
  | arr (A : QArr)
  | other

/-- A waveform: the modes at each time, and the stored frame. -/
structure Wave where
  ellMin : Int
  ellMax : Int
  data : List (Row ℂ)
  frame : QArr

/-- `if isinstance(R_basis, (list, np.ndarray)) and len(R_basis) == 1: R_basis = R_basis[0]`
(`scri/rotations.py` lines 298-299) -/
def unwrap : RArg → RArg
  | .list [R] => .quat R
  | .arr (.vec [R]) => .quat R
  | .arr (.mat [r]) => .arr (.vec r)
  | R => R

/-- Lines 309-316: the new frame for a series of rotors. -/
noncomputable def seriesFrame (F : QArr) (Rs : List (Quaternion ℝ)) : Py QArr :=
  if F.nonempty then
    if F.len = 1 then F.stack Rs
    else F.mulVec Rs
  else .ok (.vec Rs)

/-- Lines 302-316: the branch for lists and arrays.  The data are changed before the frame is; an
exception in the second step leaves the new data with the old frame.  The result is the waveform
together with the exception, if any. -/
noncomputable def rotateSeries (W : Wave) (Rs : List (Quaternion ℝ)) (D : Row ℂ) : Wave × Option PyErr :=
  if W.data.length ≠ Rs.length then (W, some .valueError)
  else
    let W := { W with data := bySeries W.ellMin W.ellMax W.data Rs D }
    match seriesFrame W.frame Rs with
    | .ok F => ({ W with frame := F }, none)
    | .error e => (W, some e)

/-- Lines 321-330: the branch for a single rotor. -/
noncomputable def rotateConst (W : Wave) (R : Quaternion ℝ) (D tmp : Row ℂ) : Wave × Option PyErr :=
  let D := fillD R W.ellMin W.ellMax D
  let W := { W with data := byConstant W.ellMin W.ellMax D W.data tmp }
  if W.frame.nonempty then ({ W with frame := W.frame.mulQ R }, none)
  else ({ W with frame := .vec [R] }, none)

/-- `rotate_decomposition_basis(W, R_basis)` (`scri/rotations.py` lines 284-343).  `D`, `tmp` are the
contents of the arrays made by `np.empty`.  The array test in line 303 raises an `IndexError` from the
formatting of its message: `"...{1}".format(shape)` has only one argument.  The history entry is not
modelled here. -/
noncomputable def rotate (W : Wave) (R : RArg) (D tmp : Row ℂ) : Wave × Option PyErr :=
  match unwrap R with
  | .list Rs => rotateSeries W Rs D
  | .arr (.vec Rs) => rotateSeries W Rs D
  | .arr (.mat _) => (W, some .indexError)
  | .quat R => rotateConst W R D tmp
  | .other => (W, none)

/-- `to_inertial_frame(W)` (`scri/rotations.py` lines 106-111): rotate by `~W.frame`.  The frame type
is set after the rotation; here the result says whether that point was reached. -/
noncomputable def toInertial (W : Wave) (D tmp : Row ℂ) : Wave × Option PyErr :=
  rotate W (.arr W.frame.inv) D tmp

/-- `rotate_physical_system(W, R_phys)` (`scri/rotations.py` lines 268-281): rotate the basis by
`~R_phys`; `~` of a list is a `TypeError`. -/
noncomputable def rotatePhysical (W : Wave) (R : RArg) (D tmp : Row ℂ) : Wave × Option PyErr :=
  match R with
  | .quat R => rotate W (.quat (star R)) D tmp
  | .arr A => rotate W (.arr A.inv) D tmp
  | .list _ => (W, some .typeError)
  | .other => (W, some .typeError)

end Verif.Rotation
