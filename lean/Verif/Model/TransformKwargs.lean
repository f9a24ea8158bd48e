import Verif.Model.Modes
import Mathlib.Data.Complex.Basic
import Mathlib.Analysis.Real.Sqrt
import Mathlib.Analysis.SpecialFunctions.Trigonometric.Basic
import Mathlib.Algebra.Quaternion

/-!
# Model of the keyword arguments of BMS transformations

`_process_transformation_kwargs` (`scri/asymptotic_bondi_data/transformations.py` lines 8-97) and the first part of
`process_transformation_kwargs` (`scri/waveform_grid.py` lines 20-118).  Arithmetic is exact.
-/

namespace Verif.TransformKwargs

open Verif.Modes

/-- The keywords that are used; `none` if a keyword is not given.  `time_translation` is `some none` if it is not a `float`. -/
structure Kw where
  supertranslation : Option (List ℂ) := none
  spacetime_translation : Option (List ℝ) := none
  space_translation : Option (List ℝ) := none
  time_translation : Option (Option ℝ) := none
  output_ell_max : Option Int := none
  working_ell_max : Option Int := none
  n_theta : Option Int := none
  n_phi : Option Int := none
  frame_rotation : Option (List ℝ) := none
  boost_velocity : Option (List ℝ) := none

/-- `sf.constant_as_ell_0_mode` (external). -/
noncomputable def constantAs (c : ℝ) : ℂ := ((c * √(4 * Real.pi) : ℝ) : ℂ)

/-- `sf.constant_from_ell_0_mode` (external). -/
noncomputable def constantFrom (x : ℂ) : ℂ := x / (√(4 * Real.pi) : ℝ)

/-- `sf.vector_as_ell_1_modes` (external). -/
noncomputable def vectorAs (x y z : ℝ) : ℂ × ℂ × ℂ :=
  ((⟨x, y⟩ : ℂ) * (√(2 * Real.pi / 3) : ℝ), ((z * √(4 * Real.pi / 3) : ℝ) : ℂ), (⟨-x, y⟩ : ℂ) * (√(2 * Real.pi / 3) : ℝ))

/-- `sf.vector_from_ell_1_modes` (external). -/
noncomputable def vectorFrom (a b c : ℂ) : ℂ × ℂ × ℂ :=
  ((a - c) / (2 * (√(2 * Real.pi / 3) : ℝ)), (a + c) / (2 * Complex.I * (√(2 * Real.pi / 3) : ℝ)), b / (√(4 * Real.pi / 3) : ℝ))

/-- Lines 23-26: padding with zeros to length 4.  (`waveform_grid.py` lines 31-35.) -/
def pad (l : List ℂ) : List ℂ := if l.length ≤ 4 then l ++ List.replicate (4 - l.length) 0 else l

/-- The array with the given items, as a function of the index. -/
def toRow (l : List ℂ) : Row ℂ := fun i => if 0 ≤ i then l.getD i.toNat 0 else 0

/-- Lines 28-35: the largest `ell`, or the error for a length that is not a square.  (`waveform_grid.py` lines 36-44.)  `int(np.sqrt(n))` is exact for lengths below `2^52`. -/
def ellMaxOf (l : List ℂ) : Py Int :=
  let ellMax := (Nat.sqrt l.length : Int) - 1
  if (ellMax + 1) ^ 2 ≠ l.length then .error .valueError else .ok ellMax

/-- The labels of the loops in lines 37-38. -/
def labels (ellMax : Int) : List (Int × Int) := (pyRange 0 (ellMax + 1)).flatMap fun ell => (pyRange 0 (ell + 1)).map fun m => (ell, m)

/-- The body of the loop in lines 39-44. -/
noncomputable def imposeStep (row : Row ℂ) (p : Int × Int) : Row ℂ :=
  let i_pos := lmIndex p.1 p.2 0
  let i_neg := lmIndex p.1 (-p.2) 0
  let a := row i_pos
  let b := row i_neg
  let row := row.set i_pos ((a + (-1) ^ p.2.natAbs * (starRingEnd ℂ) b) / 2)
  row.set i_neg ((-1) ^ p.2.natAbs * (starRingEnd ℂ) (row i_pos))

/-- Lines 37-44. -/
noncomputable def imposeReality (ellMax : Int) (row : Row ℂ) : Row ℂ := (labels ellMax).foldl imposeStep row

/-- The body of the loop in `waveform_grid.py` lines 48-57. -/
noncomputable def checkStep (row : Row ℂ) (p : Int × Int) : Py Unit :=
  let a := row (lmIndex p.1 p.2 0)
  let b := row (lmIndex p.1 (-p.2) 0)
  if 3e-16 + 1e-15 * ‖b‖ < ‖a - (-1) ^ p.2.natAbs * (starRingEnd ℂ) b‖ then .error .valueError else .ok ()

/-- `waveform_grid.py` lines 46-57. -/
noncomputable def checkReality (ellMax : Int) (row : Row ℂ) : Py Unit := (labels ellMax).forM (checkStep row)

/-- The two arrays `supertranslation` and `spacetime_translation`. -/
structure St where
  row : Row ℂ
  t : ℝ
  x : ℝ
  y : ℝ
  z : ℝ

/-- Lines 46-48. -/
noncomputable def initial (row : Row ℂ) : St :=
  let v := vectorFrom (row 1) (row 2) (row 3)
  { row := row, t := (constantFrom (row 0)).re, x := -v.1.re, y := -v.2.1.re, z := -v.2.2.re }

/-- `supertranslation[0] = sf.constant_as_ell_0_mode(spacetime_translation[0])` (lines 57, 74). -/
noncomputable def putTime (s : St) : St := { s with row := s.row.set 0 (constantAs s.t) }

/-- `supertranslation[1:4] = sf.vector_as_ell_1_modes(-spacetime_translation[1:4])` (lines 58, 67). -/
noncomputable def putSpace (s : St) : St :=
  let v := vectorAs (-s.x) (-s.y) (-s.z)
  { s with row := ((s.row.set 1 v.1).set 2 v.2.1).set 3 v.2.2 }

/-- Lines 49-58. -/
noncomputable def stepSpacetime (kw : Kw) (s : St) : Py St :=
  match kw.spacetime_translation with
  | none => .ok s
  | some [t, x, y, z] => .ok (putSpace (putTime { s with t := t, x := x, y := y, z := z }))
  | some _ => .error .typeError

/-- Lines 59-67. -/
noncomputable def stepSpace (kw : Kw) (s : St) : Py St :=
  match kw.space_translation with
  | none => .ok s
  | some [x, y, z] => .ok (putSpace { s with x := x, y := y, z := z })
  | some _ => .error .typeError

/-- Lines 68-73. -/
noncomputable def stepTime (kw : Kw) (s : St) : Py St :=
  match kw.time_translation with
  | none => .ok s
  | some (some t) => .ok (putTime { s with t := t })
  | some none => .error .typeError

/-- Lines 46-73, and `waveform_grid.py` lines 58-86: the supertranslation with the overrides. -/
noncomputable def translations (kw : Kw) (row : Row ℂ) : Py (Row ℂ) := do
  let s ← stepSpacetime kw (initial row)
  let s ← stepSpace kw s
  let s ← stepTime kw s
  pure s.row

/-- Lines 12-44: the largest `ell` and the supertranslation before the overrides. -/
noncomputable def superInput (kw : Kw) : Py (Int × Row ℂ) :=
  match kw.supertranslation with
  | none => .ok (1, fun _ => 0)
  | some l => do
    let ellMax ← ellMaxOf (pad l)
    pure (ellMax, imposeReality ellMax (toRow (pad l)))

/-- `waveform_grid.py` lines 22-57: the same, but with a check. -/
noncomputable def gridSuperInput (kw : Kw) : Py (Int × Row ℂ) :=
  match kw.supertranslation with
  | none => .ok (1, fun _ => 0)
  | some l => do
    let ellMax ← ellMaxOf (pad l)
    checkReality ellMax (toRow (pad l))
    pure (ellMax, toRow (pad l))

/-- `np.quaternion(*array)` (external): one, three or four numbers, or none. -/
noncomputable def mkQuaternion : List ℝ → Py (Quaternion ℝ)
  | [] => .ok 0
  | [w] => .ok ⟨w, 0, 0, 0⟩
  | [x, y, z] => .ok ⟨0, x, y, z⟩
  | [w, x, y, z] => .ok ⟨w, x, y, z⟩
  | _ => .error .typeError

/-- Lines 85-88: the rotor.  (`waveform_grid.py` lines 113-116.) -/
noncomputable def rotor (kw : Kw) : Py (Quaternion ℝ) := do
  let q ← mkQuaternion (kw.frame_rotation.getD [1, 0, 0, 0])
  if √(Quaternion.normSq q) < 3e-16 then .error .valueError else pure ((√(Quaternion.normSq q))⁻¹ • q)

/-- Lines 91-96: the velocity.  (`waveform_grid.py` lines 119-125.) -/
noncomputable def velocity (kw : Kw) : Py (List ℝ) :=
  let v := kw.boost_velocity.getD [0, 0, 0]
  if v.length ≠ 3 ∨ 1 ≤ √((v.map (· ^ 2)).sum) then .error .valueError else .ok v

/-- What `_process_transformation_kwargs` returns. -/
structure Result where
  frame_rotation : Quaternion ℝ
  boost_velocity : List ℝ
  ellMaxSuper : Int
  supertranslation : Row ℂ
  working_ell_max : Int
  output_ell_max : Int

/-- Lines 79-82: the largest `ell` used on the way. -/
def workingEllMax (kw : Kw) (input_ell_max ellMaxSuper : Int) : Py Int :=
  let w := kw.working_ell_max.getD (2 * input_ell_max + ellMaxSuper)
  if w < input_ell_max then .error .valueError else .ok w

/-- `_process_transformation_kwargs` (lines 8-98). -/
noncomputable def process (input_ell_max : Int) (kw : Kw) : Py Result := do
  let (ellMaxSuper, row) ← superInput kw
  let row ← translations kw row
  let w ← workingEllMax kw input_ell_max ellMaxSuper
  let R ← rotor kw
  let v ← velocity kw
  pure { frame_rotation := R, boost_velocity := v, ellMaxSuper := ellMaxSuper, supertranslation := row, working_ell_max := w, output_ell_max := kw.output_ell_max.getD input_ell_max }

/-- `waveform_grid.py` lines 91-110: the number of points; errors only, the warnings are not modelled. -/
def gridPoints (given : Option Int) (w_ell_max ellMaxSuper : Int) : Py Int :=
  let n := given.getD (2 * (w_ell_max + ellMaxSuper) + 1)
  if n < 2 * w_ell_max + 1 then .error .valueError else .ok n

/-- What is used of the result of `process_transformation_kwargs`. -/
structure GridResult where
  supertranslation : Row ℂ
  ellMaxSuper : Int
  ell_max : Int
  n_theta : Int
  n_phi : Int
  frame_rotation : Quaternion ℝ
  boost_velocity : List ℝ

/-- `process_transformation_kwargs` (`waveform_grid.py` lines 20-125). -/
noncomputable def gridProcess (ell_max : Int) (kw : Kw) : Py GridResult := do
  let (ellMaxSuper, row) ← gridSuperInput kw
  let row ← translations kw row
  let n_theta ← gridPoints kw.n_theta ell_max ellMaxSuper
  let n_phi ← gridPoints kw.n_phi ell_max ellMaxSuper
  let R ← rotor kw
  let v ← velocity kw
  pure { supertranslation := row, ellMaxSuper := ellMaxSuper, ell_max := ell_max + ellMaxSuper, n_theta := n_theta, n_phi := n_phi, frame_rotation := R, boost_velocity := v }

end Verif.TransformKwargs
