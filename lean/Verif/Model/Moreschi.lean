import Verif.Model.GridMultiply
import Verif.Model.SuperrestLoop

/-!
# Model of the search for the supertranslation to the superrest frame

`scri/asymptotic_bondi_data/map_to_superrest_frame.py` lines 108-319.  `spinsfast.map2salm` and scipy's `CubicSpline` are parameters.  Arithmetic is exact.  Functions on the grid are the lists of their values on
`nodes n`, theta first.  `ell_max` is at least 1.
-/

namespace Verif.Moreschi
open Verif Verif.Modes Verif.Superrest Verif.GridMultiply Verif.SuperrestLoop

/-- `charge_vector_from_aspect` (`bms_charges.py` lines 62-67) of an array with the last index 0, 1, 2, 3. -/
noncomputable def fourVector (a b c d : ℂ) : Fin 4 → ℝ := fun i => ![a.re, (b - d).re / √6, (b + d).im / √6, c.re / √3] i / √(4 * Real.pi)

/-- `P` (line 124) at one time. -/
noncomputable def momentum (row : Row ℂ) : Fin 4 → ℝ := fun i => -fourVector (row 0) (row 1) (row 2) (row 3) i

/-- `r_vector` (lines 126-133) at one point: the values of the four harmonics are taken as if they were modes. -/
noncomputable def rVector (R : Quaternion ℝ) : Fin 4 → ℝ := fun i => 4 * Real.pi * fourVector (Y 0 0 0 R) (Y 0 1 (-1) R) (Y 0 1 0 R) (Y 0 1 1 R) i

/-- `M_Grid` (lines 137 and 148). -/
noncomputable def restMass (row : Row ℂ) : ℝ :=
  let P := momentum row
  √(P 0 ^ 2 - (P 1 ^ 2 + P 2 ^ 2 + P 3 ^ 2))

/-- `K_Grid` (lines 139-146 and 150) at one point. -/
noncomputable def conformalAt (row : Row ℂ) (R : Quaternion ℝ) : ℝ :=
  let P := momentum row
  let r := rVector R
  restMass row / (P 0 * r 0 - (P 1 * r 1 + P 2 * r 2 + P 3 * r 3))

/-- The number of points in each direction, `2 * ell_max + 1`. -/
def size (L : Int) : Nat := (2 * L + 1).toNat

/-- `K_Grid` at one time. -/
noncomputable def conformal (row : Row ℂ) (L : Int) : List ℝ := (nodes (size L)).map (conformalAt row)

/-- The entries `[i, j]`, for `i` and `j` in `range(n)`, of an array with `n'` times `n'` entries. -/
def pick (n n' : Nat) (grid : List ℝ) : Py (List ℝ) :=
  if n ≤ n' then .ok ((List.range n).flatMap fun i => (List.range n).map fun j => grid.getD (i * n' + j) 0) else .error .indexError

/-- The interpolation at each point (lines 177-183): `rows` are the values at the times `t`. -/
noncomputable def interp (spline : List ℝ → List ℝ → ℝ → ℝ) (t : List ℝ) (rows : List (List ℝ)) (alpha : List ℝ) : List ℝ :=
  (List.range alpha.length).map fun g => spline t (rows.map fun r => r.getD g 0) (alpha.getD g 0)

/-- `.grid().real` (lines 173 and 269), on the grid that belongs to the `ell_max` of the series. -/
noncomputable def realGrid (psi : MTS) : List (List ℝ) := psi.data.map fun row => (salm2map row 0 psi.ellMax (size psi.ellMax)).map Complex.re

/-- `compute_Moreschi_supermomentum` (lines 155-197). -/
noncomputable def moreschi (map2salm : List ℂ → Int → Int → Row ℂ) (spline : List ℝ → List ℝ → ℝ → ℝ) (psi : MTS) (alpha : List ℝ) (L : Int) : Py (Row ℂ) := do
  let K := psi.data.map fun row => conformal row L
  let grid ← (realGrid psi).mapM (pick (size L) (size psi.ellMax))
  let psiI := interp spline psi.t grid alpha
  let KI := interp spline psi.t K alpha
  let D := opD (map2salm (alpha.map fun x : ℝ => (x : ℂ)) 0 L) L
  let new := List.zipWith (fun (x : ℝ × ℝ) (d : ℂ) => ((x.1 : ℂ) - d) / (x.2 : ℂ) ^ 3) (psiI.zip KI) (salm2map D 0 L (size L))
  pure (map2salm new 0 L)

/-- `M_Grid`: a number, or with a target an array (lines 277 and 294). -/
inductive Mass where
  | number (m : ℝ)
  | array (l : List ℝ)

/-- `M_Grid * K_Grid**3` (line 219), added to an array of the size of `K_Grid`; arrays of different sizes do not match. -/
noncomputable def Mass.times (K : List ℝ) : Mass → Py (List ℝ)
  | .number m => .ok (K.map fun k => m * k ^ 3)
  | .array l => if l.length = K.length then .ok (List.zipWith (fun m k => m * k ^ 3) l K) else .error .valueError

/-- `compute_alpha_perturbation` (lines 200-224). -/
noncomputable def perturbation (map2salm : List ℂ → Int → Int → Row ℂ) (psi : Row ℂ) (M : Mass) (K : List ℝ) (L : Int) : Py (List ℝ) := do
  let MK3 ← M.times K
  let sum := List.zipWith (fun (z : ℂ) (x : ℝ) => z + x) (salm2map psi 0 L (size L)) MK3
  let alpha := opDinv (map2salm sum 0 L) L
  pure ((salm2map alpha 0 L (size L)).map Complex.re)

/-- `target_PsiM_Grid_interp` (lines 269-276 and 286-293).  The target's own grid is used with the indices of `prev_alpha_Grid`. -/
noncomputable def targetInterp (spline : List ℝ → List ℝ → ℝ → ℝ) (target : MTS) (prev : List ℝ) (L : Int) : Py (List ℝ) := do
  let a ← pick (size target.ellMax) (size L) prev
  pure (interp spline target.t (realGrid target) a)

/-- `np.linalg.norm(x[4:])`. -/
noncomputable def norm4 (row : Row ℂ) (L : Int) : ℝ := √(((pyRange 4 ((L + 1) ^ 2)).map fun i => ‖row i‖ ^ 2).sum)

/-- A quotient of floats that are not negative. -/
noncomputable def quot (x y : ℝ) : Err := if y = 0 then (if x = 0 then .nan else .inf) else .fin (x / y)

/-- The variables of the loop. -/
structure Vars where
  alpha : List ℝ
  rest : Option (Row ℂ × Mass × List ℝ)

/-- `M_Grid` with a target (lines 268-277, 285-294) or without. -/
noncomputable def massFor (spline : List ℝ → List ℝ → ℝ → ℝ) (target : Option MTS) (prev : List ℝ) (psiI : Row ℂ) (L : Int) : Py Mass :=
  match target with
  | none => .ok (.number (restMass psiI))
  | some T => do
    let g ← targetInterp spline T prev L
    pure (.array (g.map fun x => -x))

/-- `rel_err` (lines 296-300). -/
noncomputable def errorFor (map2salm : List ℂ → Int → Int → Row ℂ) (spline : List ℝ → List ℝ → ℝ → ℝ) (target : Option MTS) (prev : List ℝ) (psiI : Row ℂ) (L : Int) : Py Err :=
  match target with
  | none => .ok (.fin (norm4 psiI L))
  | some T => do
    let g ← targetInterp spline T prev L
    let tm := map2salm (g.map fun x : ℝ => (x : ℂ)) 0 L
    pure (quot (norm4 (fun i => psiI i - tm i) L) (norm4 tm L))

/-- The body of the loop (lines 261-306), except for the choice of the best. -/
noncomputable def step (map2salm : List ℂ → Int → Int → Row ℂ) (spline : List ℝ → List ℝ → ℝ → ℝ) (psi : MTS) (target : Option MTS) (L : Int) (itr : Nat) (v : Vars) : Py (Vars × Err) := do
  let prev := v.alpha
  let (psiI, M, K) ← if itr = 0 then do
      let psiI ← moreschi map2salm spline psi v.alpha L
      let M ← massFor spline target prev psiI L
      pure (psiI, M, conformal psiI L)
    else match v.rest with
      | some r => .ok r
      | none => .error .unboundLocal
  let p ← perturbation map2salm psiI M K L
  let alpha := List.zipWith (· + ·) v.alpha p
  let psiI ← moreschi map2salm spline psi alpha L
  let M ← massFor spline target prev psiI L
  let e ← errorFor map2salm spline target prev psiI L
  pure ({ alpha := alpha, rest := some (psiI, M, conformal psiI L) }, e)

/-- `supertranslation_to_map_to_superrest_frame` (lines 227-319); `psi` is the Moreschi supermomentum of the data, `target` that of the target (after `WM_to_MT`). -/
noncomputable def toSuperrest (map2salm : List ℂ → Int → Int → Row ℂ) (spline : List ℝ → List ℝ → ℝ → ℝ) (psi : MTS) (target : Option MTS) (N : Int) (tol : Err) (L : Int) : Py (Tr × List Err) :=
  supertranslation (step map2salm spline psi target L) Vars.alpha (fun g => map2salm (g.map fun x : ℝ => (x : ℂ)) 0 L) (List.replicate (size L * size L) 0)
    { alpha := List.replicate (size L * size L) 0, rest := none } N tol

end Verif.Moreschi
