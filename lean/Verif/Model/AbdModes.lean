import Verif.Model.GridModes

/-!
# Model of `AsymptoticBondiData.transform`, from modes to modes (`scri/asymptotic_bondi_data/transformations.py` lines 100-148, 151-196, 199-431)

The processing of keywords is that of `Model/TransformKwargs`, the equations in one direction are those of `Model/AbdTransform`.  Arithmetic is exact.  `spinsfast.map2salm` and `CubicSpline` are parameters.
-/

namespace Verif.AbdModes

open Verif Verif.Modes Verif.AbdTransform Verif.TransformKwargs Verif.GridModes
open Verif.GridMultiply (rect)

/-- An `AsymptoticBondiData` object: `psi0`, …, `psi4`, `sigma` in this order, one row of modes from `ell = 0` to `ell_max` for each time. -/
structure Abd where
  t : List ℝ
  ellMax : Int
  data : Fin 6 → List (Row ℂ)

/-- The spin weights of the six fields (lines 324-334, 419-429). -/
def spin : Fin 6 → Int := ![2, 1, 0, -1, -2, 2]

/-- `boosted_grid` (lines 100-148). -/
noncomputable def boostedGrid (r : Result) (n : Nat) : List (Quaternion ℝ) :=
  let v := vec3 r.boost_velocity
  let beta := vabs v
  (rect n n).map fun x =>
    let rotated := r.frame_rotation * x
    Bprm beta (fun i => v i / beta) (rotateVec rotated zhat) * rotated

/-- `sf.Modes.eth` (external): the operator of Newman and Penrose. -/
noncomputable def ethNP (s : Int) (f : Charges.Modes) : Charges.Modes := fun ell m => ((√((ell - s) * (ell + s + 1) : Int) : ℝ) : ℂ) * f ell m

/-- `supertranslation` after line 301. -/
noncomputable def alphaModes (r : Result) : Charges.Modes := Charges.re fun ell m => r.supertranslation (lmIndex ell m 0)

/-- `self.psi0.evaluate(R)`, …, at the time with number `i`. -/
noncomputable def evaluate (a : Abd) (R : Quaternion ℝ) (c : Fin 6) (i : Nat) : ℂ := dot (fun ell m => ((a.data c).getD i fun _ => 0) (lmIndex ell m 0)) (spin c) a.ellMax R

/-- Everything that is evaluated at one rotor of the grid (lines 180-191, 311-334). -/
noncomputable def dirAt (a : Abd) (r : Result) (R : Quaternion ℝ) : Dir :=
  let v := vec3 r.boost_velocity
  let L := r.ellMaxSuper
  { vr := ∑ i, v i * rotateVec R zhat i
    ethVr := dot (vDotR v) 1 1 R
    alpha := (dot (alphaModes r) 0 L R).re
    ethAlphaNP := dot (ethNP 0 (alphaModes r)) 1 L R
    ethEthAlphaNP := dot (ethNP 1 (ethNP 0 (alphaModes r))) 2 L R
    psi0 := evaluate a R 0
    psi1 := evaluate a R 1
    psi2 := evaluate a R 2
    psi3 := evaluate a R 3
    psi4 := evaluate a R 4
    sigma := evaluate a R 5 }

/-- Line 391: the constant part of the supertranslation. -/
noncomputable def alpha0 (r : Result) : ℝ := (constantFrom (alphaModes r 0 0)).re

/-- The new modes (lines 417-429): `map2salm grid nTheta nPhi s lmax` of the values of the field `c` at the time with number `i`. -/
noncomputable def newModes (map2salm : List ℂ → Nat → Nat → Int → Int → Row ℂ) (n : Nat) (L : Int) (ts : List ℝ) (vals : List (List (List ℂ))) (c : Fin 6) : List (Row ℂ) :=
  (List.range ts.length).map fun i => map2salm (vals.map fun d => (d.getD c []).getD i 0) n n (spin c) L

open Classical in
/-- `AsymptoticBondiData.transform(**kwargs)` (lines 199-431), with the error of `CubicSpline` for fewer than two points, or points that do not increase. -/
noncomputable def transform (spline : List (ℝ × ℂ) → ℝ → ℂ) (map2salm : List ℂ → Nat → Nat → Int → Int → Row ℂ) (a : Abd) (kw : Kw) : Py Abd := do
  let r ← process a.ellMax kw
  let n := (2 * r.working_ell_max + 1).toNat
  let dirs := (boostedGrid r n).map (dirAt a r)
  let (ts, vals) ← AbdTransform.transform spline (vabs (vec3 r.boost_velocity)) (alpha0 r) a.t dirs
  if a.t.length < 2 ∨ ¬ a.t.Pairwise (· < ·) then .error .valueError
  else pure { t := ts, ellMax := r.output_ell_max, data := newModes map2salm n r.output_ell_max ts vals }

end Verif.AbdModes
