import Verif.Py.Basic
import Mathlib.Data.Complex.Basic
import Mathlib.Data.Complex.BigOperators
import Mathlib.Analysis.Real.Sqrt
import Mathlib.Analysis.SpecialFunctions.Trigonometric.Basic

/-!
# Model of the BMS charges

`scri/asymptotic_bondi_data/bms_charges.py`.

A `ModesTimeSeries` at one time is a function of `ell` and `m`.  The product of two series is a parameter; truncation in `ell` discards modes.
-/

namespace Verif.Charges

/-- The mode weights of one function on the sphere. -/
abbrev Modes := Int → Int → ℂ

/-- `eth_GHP`, `ethbar_GHP` and `bar` of `spherical_functions`, for a function of spin weight `s`.  (For `ell < |s|` the radicand is not positive and the root 0.) -/
noncomputable def ethGHP (s : Int) (f : Modes) : Modes := fun ell m => ((√(((ell - s) * (ell + s + 1) : Int) / 2) : ℝ) : ℂ) * f ell m
noncomputable def ethbarGHP (s : Int) (f : Modes) : Modes := fun ell m => -((√(((ell + s) * (ell - s + 1) : Int) / 2) : ℝ) : ℂ) * f ell m
noncomputable def bar (s : Int) (f : Modes) : Modes := fun ell m => (-1) ^ (s + m).natAbs * (starRingEnd ℂ) (f ell (-m))

/-- `.real` of a function of spin weight 0. -/
noncomputable def re (f : Modes) : Modes := fun ell m => (f ell m + bar 0 f ell m) / 2

/-- `truncate_ell`. -/
def truncateEll (n : Int) (f : Modes) : Modes := fun ell m => if ell ≤ n then f ell m else 0

/-- `charge_vector_from_aspect` (lines 50-67) of the list of mode weights at one time.  The result has the shape of the argument; only arguments with four weights give one in which all components are set. -/
noncomputable def chargeVectorFromAspect (charge : List ℂ) : Py (List ℝ) := do
  let c0 ← pyGet charge 0
  let c1 ← pyGet charge 1
  let c2 ← pyGet charge 2
  let c3 ← pyGet charge 3
  pure ([c0.re, (c1 - c3).re / √6, (c1 + c3).im / √6, c2.re / √3].map (· / √(4 * Real.pi)))

/-- The array of the modes with `ell <= 1`. -/
def view1 (f : Modes) : List ℂ := [f 0 0, f 1 (-1), f 1 0, f 1 1]

/-- `AsymptoticBondiData` at one time; `sigmaDot` is the derivative of `sigma`. -/
structure Abd where
  t : ℝ
  psi1 : Modes
  psi2 : Modes
  sigma : Modes
  sigmaDot : Modes

/-- The argument `truncate_ell` of `mass_aspect`: a function (which determines the truncation of the product), or an integer. -/
inductive Trunc where
  | callable (ellMax : Int)
  | int (n : Int)

/-- `mass_aspect` (lines 14-47).  `mul s t` is the product of functions of spin weights `s` and `t`; its default truncation is at `dflt`. -/
noncomputable def massAspect (mul : Int → Int → Modes → Modes → Modes) (dflt : Int) (d : Abd) (truncate_ell : Trunc) : Modes :=
  match truncate_ell with
  | .callable n => fun ell m => -(re (fun ell m => d.psi2 ell m + truncateEll n (mul 2 (-2) d.sigma (bar 2 d.sigmaDot)) ell m) ell m)
  | .int n =>
    if n ≠ 0 then fun ell m => -(re (fun ell m => truncateEll n d.psi2 ell m + truncateEll n (mul 2 (-2) d.sigma (bar 2 d.sigmaDot)) ell m) ell m)
    else fun ell m => -(re (fun ell m => d.psi2 ell m + truncateEll dflt (mul 2 (-2) d.sigma (bar 2 d.sigmaDot)) ell m) ell m)

/-- `bondi_four_momentum` (lines 77-85). -/
noncomputable def bondiFourMomentum (mul : Int → Int → Modes → Modes → Modes) (dflt : Int) (d : Abd) : Py (List ℝ) :=
  chargeVectorFromAspect (view1 (massAspect mul dflt d (.int 1)))

/-- `bondi_rest_mass` (lines 70-74) at one time; `none` is `nan`, the root of a negative number. -/
noncomputable def bondiRestMass (mul : Int → Int → Modes → Modes → Modes) (dflt : Int) (d : Abd) : Py (Option ℝ) := do
  let P ← bondiFourMomentum mul dflt d
  let p0 ← pyGet P 0
  let x := p0 ^ 2 - ((P.drop 1).map (· ^ 2)).sum
  pure (if x < 0 then none else some (√x))

/-- `bondi_angular_momentum` (lines 88-101). -/
noncomputable def bondiAngularMomentum (mul : Int → Int → Modes → Modes → Modes) (d : Abd) : Py (List ℝ) := do
  let v ← chargeVectorFromAspect (view1 fun ell m => Complex.I * (truncateEll 1 d.psi1 ell m + truncateEll 1 (mul 2 (-1) d.sigma (ethGHP (-2) (bar 2 d.sigma))) ell m))
  pure (v.drop 1)

/-- `bondi_boost_charge` (lines 154-172). -/
noncomputable def bondiBoostCharge (mul : Int → Int → Modes → Modes → Modes) (d : Abd) : Py (List ℝ) := do
  let v ← chargeVectorFromAspect (view1 fun ell m => -(truncateEll 1 d.psi1 ell m + truncateEll 1 (mul 2 (-1) d.sigma (ethGHP (-2) (bar 2 d.sigma))) ell m
    + 0.5 * ethGHP 0 (truncateEll 1 (mul 2 (-2) d.sigma (bar 2 d.sigma))) ell m
    - d.t * ethGHP 0 (re fun ell m => truncateEll 1 d.psi2 ell m + truncateEll 1 (mul 2 (-2) d.sigma (bar 2 d.sigmaDot)) ell m) ell m))
  pure (v.drop 1)

/-- `bondi_CoM_charge` (lines 175-189). -/
noncomputable def bondiCoMCharge (mul : Int → Int → Modes → Modes → Modes) (d : Abd) : Py (List ℝ) := do
  let v ← chargeVectorFromAspect (view1 fun ell m => -(truncateEll 1 d.psi1 ell m + truncateEll 1 (mul 2 (-1) d.sigma (ethGHP (-2) (bar 2 d.sigma))) ell m
    + 0.5 * ethGHP 0 (truncateEll 1 (mul 2 (-2) d.sigma (bar 2 d.sigma))) ell m))
  pure (v.drop 1)

/-- The formula of `bondi_dimensionless_spin` (lines 135-151) at one time, with `vhat` as there. -/
noncomputable def dimensionlessSpin (N J : Fin 3 → ℝ) (p0 : ℝ) (p : Fin 3 → ℝ) : Fin 3 → ℝ :=
  let Msqr := p0 ^ 2 - ∑ i, p i ^ 2
  let v := fun i => p i / p0
  let vnorm := √(∑ i, v i ^ 2)
  let vhat := if vnorm ≠ 0 then fun i => v i / vnorm else v
  let gamma := 1 / √(1 - vnorm ^ 2)
  let Jv := ∑ i, J i * vhat i
  let cross := ![v 1 * N 2 - v 2 * N 1, v 2 * N 0 - v 0 * N 2, v 0 * N 1 - v 1 * N 0]
  fun i => (gamma * (J i + cross i) - (gamma - 1) * Jv * vhat i) / Msqr

/-- `supermomentum` (lines 242-266): the definition, in lower case; `prod` is the product `sigma.grid_multiply(sigma.bar.dot)`. -/
noncomputable def supermomentumDensity (prod : Modes) (d : Abd) (definition : String) : Py Modes :=
  if definition ∈ ["bondi-sachs", "bs"] then .ok fun ell m => d.psi2 ell m + prod ell m
  else if definition ∈ ["moreschi", "m"] then .ok fun ell m => d.psi2 ell m + prod ell m + ethGHP (-1) (ethGHP (-2) (bar 2 d.sigma)) ell m
  else if definition ∈ ["geroch", "g"] then
    .ok fun ell m => d.psi2 ell m + prod ell m + 0.5 * (ethGHP (-1) (ethGHP (-2) (bar 2 d.sigma)) ell m - ethbarGHP 1 (ethbarGHP 2 d.sigma) ell m)
  else if definition ∈ ["geroch-winicour", "gw"] then .ok fun ell m => d.psi2 ell m + prod ell m - ethbarGHP 1 (ethbarGHP 2 d.sigma) ell m
  else .error .valueError

/-- ... and lines 267-270, with the flag `integrated`. -/
noncomputable def supermomentum (prod : Modes) (d : Abd) (definition : String) (integrated : Bool) : Py Modes := do
  let f ← supermomentumDensity prod d definition
  pure (if integrated then fun ell m => -0.5 * bar 0 f ell m / (√Real.pi : ℝ) else f)

end Verif.Charges
