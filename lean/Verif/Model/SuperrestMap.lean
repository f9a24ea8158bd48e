import Verif.Model.FrameErrors
import Verif.Model.Moreschi
import Verif.Model.Cwwy
import Verif.Model.TransformKwargs

/-!
# Model of `map_to_superrest_frame` with what its solvers compute

`scri/asymptotic_bondi_data/map_to_superrest_frame.py` lines 227-565 and 670-907, without targets.  The loops are those of `Verif.Model.SuperrestLoop`; here they get the charges, the transformations found from them and the
errors.  Parameters are: the products of modes and the integrals (`FrameErrors.Ext`), `spinsfast.map2salm`, scipy's `CubicSpline`, the product of BMS transformations with its reordering, and the transformation of the data.
-/

namespace Verif.SuperrestMap
open Verif Verif.Charges Verif.Modes Verif.SuperrestLoop Verif.FrameErrors

/-- What is called. -/
structure Calls extends FrameErrors.Ext where
  map2salm : List ℂ → Int → Int → Row ℂ
  spline : List ℝ → List ℝ → ℝ → ℝ
  /-- `(new * old).reorder(["supertranslation", "frame_rotation", "boost_velocity"])` -/
  compose : Tr → Tr → Py Tr
  /-- `abd.transform(supertranslation=..., frame_rotation=..., boost_velocity=...)` -/
  transform : Data → Tr → Py Data

variable (c : Calls)

/-- The times of the data. -/
def times (a : Data) : List ℝ := a.at'.map (·.t)

/-- The value of a number of which the calculation may have failed. -/
def orNan : Py Err → Err
  | .ok e => e
  | .error _ => .nan

/-! ## The center of mass -/

/-- `bondi_CoM_charge() / bondi_four_momentum()[:, 0, None]` at one time (lines 373 and 389); `none` if the energy is 0. -/
noncomputable def centre (d : Abd) : Py (Option (Fin 3 → ℝ)) := do
  let G ← bondiCoMCharge c.mul d
  let P ← bondiFourMomentum c.mul c.dflt d
  pure (if P.getD 0 0 = 0 then none else some fun i => vec G i / P.getD 0 0)

/-- `transformation_from_CoM_charge(G, t)` (lines 322-342), the modes of the supertranslation.  No times are a `TypeError` of `np.polyfit`, nan is a `LinAlgError`. -/
noncomputable def comFrom (g : List (Option (Fin 3 → ℝ)) × List ℝ) : Py Tr :=
  if g.2 = [] then .error .typeError
  else if none ∈ g.1 then .error .other
  else
    let fit := fun i => Superrest.polyfit g.2 (g.1.map fun v => v.getD 0 i)
    let x := TransformKwargs.vectorAs (fit 0).2 (fit 1).2 (fit 2).2
    .ok { super := fun i => if i = 1 then -x.1 else if i = 2 then -x.2.1 else if i = 3 then -x.2.2 else 0, rotation := 1, boost := fun i => (fit i).1 }

/-- The calls of `com_transformation_to_map_to_superrest_frame` (lines 345-404).  Data without times are refused by `integrate` (line 391), here at once. -/
noncomputable def comEnv : Env Data (List (Option (Fin 3 → ℝ)) × List ℝ) where
  charge a := do
    let G ← a.at'.mapM (centre c)
    pure (G, times a)
  fromCharge := comFrom
  compose := c.compose
  transform := c.transform
  error a g := orNan (average c.toExt (g.1.map fun v => v.map norm3) (times a))

/-! ## The rotation -/

/-- `chi / np.linalg.norm(chi, axis=-1)[:, None]` at one time (lines 534 and 546): 0 / 0 is nan. -/
noncomputable def unit (s : Option (Fin 3 → ℝ)) : Option (Fin 3 → ℝ) :=
  match s with
  | none => none
  | some s => if norm3 s = 0 then none else some fun i => s i / norm3 s

/-- `rotation_from_spin_charge(chi, t)` (lines 407-419): the spin at the time nearest to 0.  With nan the constructor of the transformation raises. -/
noncomputable def rotationFrom (g : List (Option (Fin 3 → ℝ)) × List ℝ) : Py Tr := do
  let k ← AbdFrame.nearest g.2 0
  match (g.1[k]?).join.bind Superrest.spinRotor with
  | none => .error .other
  | some q => pure { Tr.one with rotation := q }

/-- The calls of the second loop of `rotation_to_map_to_superrest_frame` (lines 527-555). -/
noncomputable def rotationEnv : Env Data (List (Option (Fin 3 → ℝ)) × List ℝ) where
  charge a := do
    let s ← a.at'.mapM (spin c.toExt)
    pure (s.map unit, times a)
  fromCharge := rotationFrom
  compose := c.compose
  transform := c.transform
  error a g := orNan (average c.toExt (g.1.map fun v => v.map fun s => norm3 fun i => s i - (if i = 2 then 1 else 0)) (times a))

/-! ## The supertranslation -/

/-- An array with the modes up to `L`. -/
def cut (L : Int) (row : Row ℂ) : Row ℂ := fun i => if 0 ≤ i ∧ i < (L + 1) ^ 2 then row i else 0

/-- `abd.supermomentum("Moreschi")` (line 255). -/
noncomputable def psiM (a : Data) : Py Superrest.MTS := do
  let rows ← a.at'.mapM fun d => supermomentum (c.prod d) d "moreschi" false
  pure { s := 0, ellMax := a.ellMax, t := times a, data := rows.map fun f => cut a.ellMax (Cwwy.rowOf f) }

/-- `supertranslation_to_map_to_superrest_frame(abd, None, ...)` (lines 227-319) with `ell_max` that of the data. -/
noncomputable def supertranslation (N : Int) (tol : Err) (a : Data) : Py Tr := do
  let psi ← psiM c a
  let (T, _) ← Moreschi.toSuperrest c.map2salm c.spline psi none N tol a.ellMax
  pure { T with super := cut a.ellMax T.super }

/-! ## The function -/

/-- `N_itr_maxes` and `rel_err_tols`. -/
structure Opts where
  passes : Int
  com : Int
  rotation : Int
  supertranslation : Int
  comTol : Err
  rotationTol : Err
  supertranslationTol : Err

/-- What the outer loop calls (lines 820-842 and 880); without a target strain nothing is aligned. -/
noncomputable def calls (o : Opts) : Outer Data Tr where
  solve s a := match s with
    | .supertranslation => supertranslation c o.supertranslation o.supertranslationTol a
    | .rotation => do
      let (T, _) ← SuperrestLoop.rotation (rotationEnv c) a o.rotation o.rotationTol
      pure T
    | .com => do
      let (T, _) ← SuperrestLoop.com (comEnv c) a o.com o.comTol
      pure T
    | _ => .error .unboundLocal
  align _ := .error .unboundLocal
  compose := c.compose
  transform := c.transform
  errors := errors c.toExt none

/-- The time translation (line 792). -/
noncomputable def timeTranslation (t0 : ℝ) : Tr := { Tr.one with super := fun i => if i = 0 then TransformKwargs.constantAs t0 else 0 }

/-- `abd_interp` (lines 786-788): the data at the times from the one nearest to `t_0 - (padding_time + 200)` to the one nearest to `t_0 + (padding_time + 200)`.  A spline at the times of its points gives the values there. -/
noncomputable def window (t0 padding : ℝ) (a : Data) : Py Data := do
  let i ← AbdFrame.nearest (times a) (t0 - (padding + 200))
  let j ← AbdFrame.nearest (times a) (t0 + (padding + 200))
  pure { a with at' := (a.at'.drop i).take (j + 1 - i) }

/-- `map_to_superrest_frame(self, t_0, ..., padding_time, ...)` (lines 766-907), without targets.  (The reordering in line 793 is applied to the identity before the product, which makes no difference.) -/
noncomputable def mapToSuperrest (o : Opts) (order : List Step) (t0 padding : ℝ) (abd : Data) : Py (Data × Tr × Rel) := do
  let interp ← window t0 padding abd
  let b0 ← c.compose (timeTranslation t0) Tr.one
  superrest (calls c o) false order o.passes (o.comTol, o.rotationTol, o.supertranslationTol) abd interp b0 (timeTranslation (-t0))

end Verif.SuperrestMap
