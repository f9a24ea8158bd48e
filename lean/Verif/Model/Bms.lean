import Verif.Model.AbdTransform
import Verif.Model.TransformKwargs
import Mathlib.LinearAlgebra.Matrix.ConjTranspose
import Mathlib.LinearAlgebra.Matrix.NonsingularInverse
import Mathlib.LinearAlgebra.Matrix.Notation
import Mathlib.Analysis.SpecialFunctions.Arsinh
import Mathlib.Analysis.SpecialFunctions.Complex.Arg
import Mathlib.Analysis.SpecialFunctions.Trigonometric.Inverse

/-!
# Model of Lorentz and BMS transformations

`scri/bms_transformations.py`.  Arithmetic is exact.  A supertranslation is a function on the sphere together with the largest `ell` of the array
that holds its modes: what `map2salm` cuts off above the largest `ell` is kept here.
-/

namespace Verif.Bms

open Verif Verif.AbdTransform Verif.TransformKwargs Matrix

/-- The strings in an `order`. -/
inductive Name where
  | supertranslation
  | frame_rotation
  | boost_velocity
  | other (n : Nat)
  deriving DecidableEq

abbrev Order := List Name

/-- `["frame_rotation", "boost_velocity"]`. -/
def lorentzNormal : Order := [.frame_rotation, .boost_velocity]

/-- `["supertranslation", "frame_rotation", "boost_velocity"]`. -/
def normalOrder : Order := [.supertranslation, .frame_rotation, .boost_velocity]

abbrev Mat := Matrix (Fin 2) (Fin 2) ℂ

/-- A `LorentzTransformation`: its attributes `frame_rotation`, `boost_velocity`, `order` and `ell_max`. -/
structure Lorentz where
  q : Quaternion ℝ
  v : Fin 3 → ℝ
  order : Order
  ellMax : Int

/-- The functions of numpy that are used: `np.linalg.svd`. -/
structure Ext where
  svd : Mat → Mat × (Fin 2 → ℝ) × Mat

/-- `.components` of a quaternion. -/
def components (q : Quaternion ℝ) : List ℝ := [q.re, q.imI, q.imJ, q.imK]

/-- Lines 198-203 and 278-280: names that are missing are appended. -/
def complete (needed : Order) (order : Order) : Order := needed.foldl (fun o n => if n ∈ o then o else o ++ [n]) order

/-- `LorentzTransformation.__init__` (lines 184-203) for the keywords `frame_rotation` and `boost_velocity`.  The supertranslation that
`_process_transformation_kwargs` returns is not used.  Other keywords of a call below do not have an effect. -/
noncomputable def lorentzInit (q : Option (Quaternion ℝ)) (v : Option (Fin 3 → ℝ)) (order : Order := lorentzNormal) (ellMax : Int := 12) : Py Lorentz := do
  let r ← process ellMax { frame_rotation := q.map components, boost_velocity := v.map List.ofFn }
  pure { q := r.frame_rotation, v := fun i => r.boost_velocity.getD i 0, order := complete lorentzNormal (order.erase .supertranslation), ellMax := ellMax }

/-- `fourvec_to_spin_matrix` (lines 10-25). -/
noncomputable def fourvecToSpin (psi : ℂ) (n : Fin 3 → ℝ) : Mat :=
  let c := Complex.cos (psi / 2)
  let s := Complex.sin (psi / 2)
  !![c + Complex.I * (n 2 : ℂ) * s, (-(n 1 : ℂ) + Complex.I * (n 0 : ℂ)) * s; ((n 1 : ℂ) + Complex.I * (n 0 : ℂ)) * s, c - Complex.I * (n 2 : ℂ) * s]

/-- The vector part of a quaternion, `components[1:]`. -/
def vecPart (q : Quaternion ℝ) : Fin 3 → ℝ := ![q.imI, q.imJ, q.imK]

/-- Lines 37-43: `psi` and the axis.  `np.arctan2(y, x)` is the argument of `x + i y`.  Where the code divides 0 by 0 the result is an error here;
in the code it is nan, with which `np.linalg.svd` raises `LinAlgError`. -/
noncomputable def rotationAxis (q : Quaternion ℝ) : Py (ℝ × (Fin 3 → ℝ)) :=
  let psi := 2 * Complex.arg ⟨q.re, vabs (vecPart q)⟩
  if psi = 0 then .ok (psi, 0)
  else if vabs (vecPart q) = 0 then .error .other
  else .ok (psi, fun i => vecPart q i / vabs (vecPart q))

/-- Lines 45-49: `chi` (without the factor `1j`) and the direction. -/
noncomputable def boostAxis (v : Fin 3 → ℝ) : ℝ × (Fin 3 → ℝ) :=
  let chi := Real.artanh (vabs v)
  if chi = 0 then (chi, 0) else (chi, fun i => v i / vabs v)

/-- `Lorentz_to_spin_matrix` (lines 28-58).  Both names are in the order of every object (`complete`). -/
noncomputable def lorentzToSpin (L : Lorentz) : Py Mat := do
  let (psi, n) ← rotationAxis L.q
  let (chi, m) := boostAxis L.v
  let R := fourvecToSpin psi n
  let B := fourvecToSpin (Complex.I * chi) m
  pure (if L.order.idxOf .frame_rotation < L.order.idxOf .boost_velocity then B * R else R * B)

/-- `scipy.linalg.logm` (external), for matrices with determinant 1 and real trace: the principal logarithm in closed form, `(s / sinh s) (A - cosh s)`
with `cosh s` half the trace. -/
noncomputable def logm (A : Mat) : Mat :=
  let c := ((A 0 0 + A 1 1) / 2).re
  if c = -1 then (Complex.I * Real.pi) • (1 : Mat)
  else if c < 1 then ((Real.arccos c / √(1 - c ^ 2) : ℝ) : ℂ) • (A - (c : ℂ) • (1 : Mat))
  else if c = 1 then A - 1
  else ((Real.arsinh √(c ^ 2 - 1) / √(c ^ 2 - 1) : ℝ) : ℂ) • (A - (c : ℂ) • (1 : Mat))

/-- Lines 80-85, `nvec`, `nvec_re` and `nvec_im`. -/
noncomputable def nvec (A : Mat) : Fin 3 → ℂ :=
  let l := logm A
  ![(l 1 0 + l 0 1) / 2, (l 1 0 - l 0 1) / 2, (l 0 0 - l 1 1) / 2]
noncomputable def nvecRe (A : Mat) : Fin 3 → ℝ := ![(nvec A 0).im, (nvec A 1).re, (nvec A 2).im]
noncomputable def nvecIm (A : Mat) : Fin 3 → ℝ := ![-(nvec A 0).re, (nvec A 1).im, -(nvec A 2).re]

/-- Lines 102-105. -/
noncomputable def hat (n : Fin 3 → ℝ) : Fin 3 → ℝ := if 2 * vabs n = 0 then ![0, 0, 1] else fun i => n i / vabs n

/-- A quaternion with given parts. -/
def mkQ (w : ℝ) (n : Fin 3 → ℝ) : Quaternion ℝ := ⟨w, n 0, n 1, n 2⟩

/-- `pure_spin_matrix_to_Lorentz` (lines 61-107) with `is_rotation=True`.  (`is_rotation=None` does not occur in this file and is not modelled.) -/
noncomputable def pureRotation (A : Mat) : Quaternion ℝ :=
  let psi := 2 * vabs (nvecRe A)
  mkQ (Real.cos (psi / 2)) (fun i => hat (nvecRe A) i * Real.sin (psi / 2))

/-- ... with `is_rotation=False`. -/
noncomputable def pureBoost (A : Mat) : Fin 3 → ℝ := fun i => Real.tanh (2 * vabs (nvecIm A)) * hat (nvecIm A) i

/-- `spin_matrix_to_Lorentz` (lines 110-148). -/
noncomputable def spinToLorentz (ext : Ext) (A : Mat) (outputOrder : Order := lorentzNormal) : Py Lorentz :=
  if ∀ i j, ‖A i j‖ ≤ 1e-8 then lorentzInit none none
  else
    let (u, s, vh) := ext.svd A
    let d : Mat := Matrix.diagonal fun i => (s i : ℂ)
    let rotation := u * vh
    let boost := if outputOrder.idxOf .frame_rotation < outputOrder.idxOf .boost_velocity then u * d * uᴴ else vhᴴ * d * vh
    lorentzInit (some (pureRotation rotation)) (some (pureBoost boost)) outputOrder

/-- `LorentzTransformation.copy` (lines 215-221). -/
noncomputable def Lorentz.copy (L : Lorentz) : Py Lorentz := lorentzInit (some L.q) (some L.v) L.order L.ellMax

/-- `LorentzTransformation.reorder` (lines 223-233). -/
noncomputable def Lorentz.reorder (ext : Ext) (L : Lorentz) (outputOrder : Order) : Py Lorentz :=
  if ¬ (.frame_rotation ∈ outputOrder ∧ .boost_velocity ∈ outputOrder) then .error .valueError
  else if L.order = outputOrder then L.copy
  else do
    let A ← lorentzToSpin L
    spinToLorentz ext A outputOrder

/-- `LorentzTransformation.inverse` (lines 235-243). -/
noncomputable def Lorentz.inverse (ext : Ext) (L : Lorentz) (outputOrder : Option Order := none) : Py Lorentz := do
  let A ← lorentzToSpin L
  spinToLorentz ext A⁻¹ (outputOrder.getD L.order.reverse)

/-- `LorentzTransformation.__mul__` (lines 250-266). -/
noncomputable def Lorentz.mul (ext : Ext) (self other : Lorentz) : Py Lorentz := do
  let A1 ← lorentzToSpin self
  let A2 ← lorentzToSpin other
  spinToLorentz ext (A2 * A1) lorentzNormal

/-- The modes of a supertranslation: the largest `ell` of the array, and the function. -/
structure Super where
  ell : Int
  f : (Fin 3 → ℝ) → ℝ

/-- The direction in which `boosted_grid` evaluates for the direction `r'` (`transformations.py` lines 100-151). -/
noncomputable def gridDirection (q : Quaternion ℝ) (v r' : Fin 3 → ℝ) : Fin 3 → ℝ :=
  let r1 := rotateVec q r'
  rotateVec (Bprm (vabs v) (fun i => v i / vabs v) r1) r1

/-- `k` of `conformal_factors` in the direction `r` (`transformations.py` lines 177-193). -/
noncomputable def gridK (v r : Fin 3 → ℝ) : ℝ := 1 / (gamma (vabs v) * (1 - ∑ i, r i * v i))

/-- `transform_supertranslation` (lines 151-180). -/
noncomputable def transformSuper (ext : Ext) (S : Super) (L : Lorentz) : Py Super := do
  let inv ← L.inverse ext (some lorentzNormal)
  pure { ell := L.ellMax, f := fun r' => let r := gridDirection inv.q inv.v r'; gridK inv.v r * S.f r }

/-- A `BMSTransformation`: its attributes. -/
structure BMS where
  q : Quaternion ℝ
  v : Fin 3 → ℝ
  S : Super
  order : Order
  ellMax : Int

/-- `BMSTransformation.__init__` (lines 270-289).  The supertranslation is padded to at least `ell = 1` by `_process_transformation_kwargs`; a negative
width is a `ValueError` of `np.pad`. -/
noncomputable def bmsInit (q : Option (Quaternion ℝ)) (v : Option (Fin 3 → ℝ)) (S : Option Super) (order : Order := normalOrder) (ellMax : Int := 12) : Py BMS := do
  let S := S.getD { ell := 1, f := fun _ => 0 }
  let _ ← workingEllMax {} ellMax (max 1 S.ell)
  let kw : Kw := { frame_rotation := q.map components, boost_velocity := v.map List.ofFn }
  let R ← rotor kw
  let w ← velocity kw
  if ellMax < max 1 S.ell then .error .valueError
  else pure { q := R, v := fun i => w.getD i 0, S := { ell := ellMax, f := S.f }, order := complete normalOrder order, ellMax := ellMax }

/-- `BMSTransformation.copy` (lines 304-311). -/
noncomputable def BMS.copy (b : BMS) : Py BMS := bmsInit (some b.q) (some b.v) (some b.S) b.order b.ellMax

/-- The first half of `BMSTransformation.reorder` (lines 313-405): to the normal order.  Without a matching branch the name is not bound. -/
noncomputable def BMS.toNormal (ext : Ext) (b : BMS) : Py BMS :=
  if b.order = normalOrder then b.copy
  else if b.order = [.frame_rotation, .supertranslation, .boost_velocity] then do
    let S' ← transformSuper ext b.S (← lorentzInit (some b.q) none b.order b.ellMax)
    bmsInit (some b.q) (some b.v) (some S') normalOrder b.ellMax
  else if b.order = [.frame_rotation, .boost_velocity, .supertranslation] then do
    let S' ← transformSuper ext b.S (← lorentzInit (some b.q) (some b.v) b.order b.ellMax)
    bmsInit (some b.q) (some b.v) (some S') normalOrder b.ellMax
  else if b.order = [.supertranslation, .boost_velocity, .frame_rotation] then do
    let L' ← (← lorentzInit (some b.q) (some b.v) b.order b.ellMax).reorder ext normalOrder
    bmsInit (some L'.q) (some L'.v) (some b.S) normalOrder b.ellMax
  else if b.order = [.boost_velocity, .supertranslation, .frame_rotation] then do
    let L' ← (← lorentzInit (some b.q) (some b.v) b.order b.ellMax).reorder ext normalOrder
    let S' ← transformSuper ext b.S (← lorentzInit none (some b.v) b.order b.ellMax)
    bmsInit (some L'.q) (some L'.v) (some S') normalOrder b.ellMax
  else if b.order = [.boost_velocity, .frame_rotation, .supertranslation] then do
    let L' ← (← lorentzInit (some b.q) (some b.v) b.order b.ellMax).reorder ext normalOrder
    let S' ← transformSuper ext b.S L'
    bmsInit (some L'.q) (some L'.v) (some S') normalOrder b.ellMax
  else .error .unboundLocal

/-- The second half of `BMSTransformation.reorder` (lines 407-499): from the normal order. -/
noncomputable def BMS.fromNormal (ext : Ext) (b : BMS) (outputOrder : Order) : Py BMS :=
  if outputOrder = normalOrder then b.copy
  else if outputOrder = [.frame_rotation, .supertranslation, .boost_velocity] then do
    let S' ← transformSuper ext b.S (← (← lorentzInit (some b.q) none b.order b.ellMax).inverse ext)
    bmsInit (some b.q) (some b.v) (some S') outputOrder b.ellMax
  else if outputOrder = [.frame_rotation, .boost_velocity, .supertranslation] then do
    let S' ← transformSuper ext b.S (← (← lorentzInit (some b.q) (some b.v) b.order b.ellMax).inverse ext)
    bmsInit (some b.q) (some b.v) (some S') outputOrder b.ellMax
  else if outputOrder = [.supertranslation, .boost_velocity, .frame_rotation] then do
    let L' ← (← lorentzInit (some b.q) (some b.v) b.order b.ellMax).reorder ext outputOrder
    bmsInit (some L'.q) (some L'.v) (some b.S) outputOrder b.ellMax
  else if outputOrder = [.boost_velocity, .supertranslation, .frame_rotation] then do
    let L' ← (← lorentzInit (some b.q) (some b.v) b.order b.ellMax).reorder ext outputOrder
    let S' ← transformSuper ext b.S (← (← lorentzInit none (some L'.v) L'.order L'.ellMax).inverse ext)
    bmsInit (some L'.q) (some L'.v) (some S') outputOrder b.ellMax
  else if outputOrder = [.boost_velocity, .frame_rotation, .supertranslation] then do
    let L' ← (← lorentzInit (some b.q) (some b.v) b.order b.ellMax).reorder ext outputOrder
    let S' ← transformSuper ext b.S (← L'.inverse ext)
    bmsInit (some L'.q) (some L'.v) (some S') outputOrder b.ellMax
  else .error .unboundLocal

/-- `BMSTransformation.reorder` (lines 313-499). -/
noncomputable def BMS.reorder (ext : Ext) (b : BMS) (outputOrder : Order) : Py BMS :=
  if ¬ (.supertranslation ∈ outputOrder ∧ .frame_rotation ∈ outputOrder ∧ .boost_velocity ∈ outputOrder) then .error .valueError
  else do
    let n ← b.toNormal ext
    n.fromNormal ext outputOrder

/-- `BMSTransformation.inverse` (lines 501-531). -/
noncomputable def BMS.inverse (ext : Ext) (b : BMS) (outputOrder : Option Order := none) : Py BMS := do
  let outputOrder := outputOrder.getD b.order.reverse
  let n ← b.reorder ext normalOrder
  let L ← (← lorentzInit (some n.q) (some n.v) lorentzNormal n.ellMax).inverse ext (some lorentzNormal.reverse)
  let i ← bmsInit (some L.q) (some L.v) (some { n.S with f := fun r => -n.S.f r }) normalOrder.reverse n.ellMax
  if i.order = outputOrder then pure i else i.reorder ext outputOrder

/-- `BMSTransformation.__mul__` (lines 539-592).  The arrays `S_prime` and `S2` have the same length. -/
noncomputable def BMS.mul (ext : Ext) (self other : BMS) : Py BMS := do
  let ellMax := max self.ellMax other.ellMax
  let n1 ← self.reorder ext normalOrder
  let n2 ← other.reorder ext normalOrder
  let L1 ← lorentzInit (some n1.q) (some n1.v) n1.order ellMax
  let L2 ← lorentzInit (some n2.q) (some n2.v) n2.order ellMax
  let L ← L1.mul ext L2
  let S' ← transformSuper ext { n1.S with ell := ellMax } L2
  bmsInit (some L.q) (some L.v) (some { ell := ellMax, f := fun r => S'.f r + n2.S.f r }) normalOrder ellMax

end Verif.Bms
