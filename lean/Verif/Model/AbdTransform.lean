import Verif.Model.Weights
import Mathlib.Data.Complex.Basic
import Mathlib.Analysis.Real.Sqrt
import Mathlib.Data.Nat.Choose.Basic
import Mathlib.Algebra.Quaternion
import Mathlib.Analysis.SpecialFunctions.Trigonometric.Inverse
import Mathlib.Analysis.SpecialFunctions.Trigonometric.Arctan
import Mathlib.Analysis.SpecialFunctions.Artanh

/-!
# Model of the pointwise part of BMS transformations

`scri/asymptotic_bondi_data/transformations.py` lines 100-148 (`boosted_grid`), 151-196 (`conformal_factors`), 199-431 (`transform`);
`scri/waveform_grid.py` lines 469-590 (`WaveformGrid.from_modes`).

Arithmetic is exact.  What is evaluated from modes on the (distorted) grid is given: a direction of the grid is its list of
values.  The interpolation in time is a parameter.  The transformation back to modes is not part of the model.
-/

namespace Verif.AbdTransform

/-- What is known in one direction of the grid: `v·r` and `ð(v·r)` (lines 180-191), the supertranslation and its derivatives with the
operator of Newman and Penrose (`supertranslation.eth`, `.eth.eth`), the fields at the times with the given numbers (lines 323-334). -/
structure Dir where
  vr : ℝ
  ethVr : ℂ
  alpha : ℝ
  ethAlphaNP : ℂ
  ethEthAlphaNP : ℂ
  psi0 : Nat → ℂ
  psi1 : Nat → ℂ
  psi2 : Nat → ℂ
  psi3 : Nat → ℂ
  psi4 : Nat → ℂ
  sigma : Nat → ℂ

/-- `γ = 1 / math.sqrt(1 - β**2)` (lines 178, 296). -/
noncomputable def gamma (beta : ℝ) : ℝ := 1 / √(1 - beta ^ 2)

/-- `one_over_k` (line 192). -/
noncomputable def oneOverK (g : ℝ) (d : Dir) : ℝ := g * (1 - d.vr)

/-- `k` (line 193). -/
noncomputable def kFactor (g : ℝ) (d : Dir) : ℝ := 1 / oneOverK g d

/-- `ðk_over_k` (line 194). -/
noncomputable def ethkOverK (d : Dir) : ℂ := d.ethVr / (1 - d.vr : ℝ)

/-- `one_over_k_cubed` (line 195). -/
noncomputable def oneOverKCubed (g : ℝ) (d : Dir) : ℝ := oneOverK g d ^ 3

/-- `ðα` and `ððα` (lines 313-317). -/
noncomputable def ethAlpha (d : Dir) : ℂ := d.ethAlphaNP / (√2 : ℝ)
noncomputable def ethEthAlpha (d : Dir) : ℂ := 0.5 * d.ethEthAlphaNP

/-- `ðuprime_over_k` (line 321). -/
noncomputable def ethUprime (d : Dir) (u : ℝ) : ℂ := ethkOverK d * ((u - d.alpha : ℝ) : ℂ) - ethAlpha d

/-- `ψ0'` to `ψ4'`, in Horner form (lines 341-381). -/
def hornerPsi0 (psi0 psi1 psi2 psi3 psi4 e ik3 : ℂ) : ℂ :=
  let f := psi4
  let f := f * e
  let f := f + -4 * psi3
  let f := f * e
  let f := f + 6 * psi2
  let f := f * e
  let f := f + -4 * psi1
  let f := f * e
  let f := f + psi0
  f * ik3

def hornerPsi1 (psi1 psi2 psi3 psi4 e ik3 : ℂ) : ℂ :=
  let f := 0 - psi4
  let f := f * e
  let f := f + 3 * psi3
  let f := f * e
  let f := f + -3 * psi2
  let f := f * e
  let f := f + psi1
  f * ik3

def hornerPsi2 (psi2 psi3 psi4 e ik3 : ℂ) : ℂ :=
  let f := psi4
  let f := f * e
  let f := f + -2 * psi3
  let f := f * e
  let f := f + psi2
  f * ik3

def hornerPsi3 (psi3 psi4 e ik3 : ℂ) : ℂ :=
  let f := 0 - psi4
  let f := f * e
  let f := f + psi3
  f * ik3

def hornerPsi4 (psi4 ik3 : ℂ) : ℂ := psi4 * ik3

/-- `σ'` (lines 382-385). -/
def newSigma (sigma eea ik : ℂ) : ℂ := (sigma - eea) * ik

/-- `fprime_of_timenaught_directionprime[:, i]` in one direction (lines 340-386): the six fields at the time with number `i`, which is `u`. -/
noncomputable def fprime (g : ℝ) (d : Dir) (i : Nat) (u : ℝ) : List ℂ :=
  let e := ethUprime d u
  let ik3 := ((oneOverKCubed g d : ℝ) : ℂ)
  [hornerPsi0 (d.psi0 i) (d.psi1 i) (d.psi2 i) (d.psi3 i) (d.psi4 i) e ik3,
   hornerPsi1 (d.psi1 i) (d.psi2 i) (d.psi3 i) (d.psi4 i) e ik3,
   hornerPsi2 (d.psi2 i) (d.psi3 i) (d.psi4 i) e ik3,
   hornerPsi3 (d.psi3 i) (d.psi4 i) e ik3,
   hornerPsi4 (d.psi4 i) ik3,
   newSigma (d.sigma i) (ethEthAlpha d) ((oneOverK g d : ℝ) : ℂ)]

/-- `np.max`, `np.min` of the values over the grid, which is not empty. -/
noncomputable def npMax (l : List ℝ) : Py ℝ := match l.max? with
  | some x => .ok x
  | none => .error .valueError
noncomputable def npMin (l : List ℝ) : Py ℝ := match l.min? with
  | some x => .ok x
  | none => .error .valueError

/-- The new time slices (lines 391-396); `alpha0` is `sf.constant_from_ell_0_mode(supertranslation[0]).real`. -/
noncomputable def slices (g alpha0 : ℝ) (u : List ℝ) (dirs : List Dir) : Py (List ℝ) := do
  let timeprime := u.map fun u => (u - alpha0) / g
  let first ← pyGet u 0
  let last ← pyGet u (-1)
  let earliest ← npMax (dirs.map fun d => kFactor g d * (first - d.alpha))
  let latest ← npMin (dirs.map fun d => kFactor g d * (last - d.alpha))
  pure (timeprime.filter fun t => decide (t ≥ earliest ∧ t ≤ latest))

/-- The interpolation in one direction (lines 399-412): `CubicSpline(x, y)(t)` is `spline [(x₀, y₀), ...] t`.  The result has, for each of the
six fields, the values at the new times. -/
noncomputable def interpolated (spline : List (ℝ × ℂ) → ℝ → ℂ) (g : ℝ) (u : List ℝ) (timeprime : List ℝ) (d : Dir) : List (List ℂ) :=
  (List.range 6).map fun c => timeprime.map fun t =>
    spline (u.zipIdx.map fun p => (kFactor g d * (p.1 - d.alpha), (fprime g d p.2 p.1).getD c 0)) t

/-- `AsymptoticBondiData.transform` between the evaluation on the grid and the return to modes (lines 288-412): the new times, and in each
direction the six fields at these times. -/
noncomputable def transform (spline : List (ℝ × ℂ) → ℝ → ℂ) (beta alpha0 : ℝ) (u : List ℝ) (dirs : List Dir) : Py (List ℝ × List (List (List ℂ))) := do
  let ts ← slices (gamma beta) alpha0 u dirs
  pure (ts, dirs.map (interpolated spline (gamma beta) u ts))

/-! ## `WaveformGrid.from_modes` -/

/-- What this function evaluates in one direction: `kconformal`, `alphasupertranslation`, `eth_alphasupertranslation` (already multiplied by
`1/sqrt(2)`), `eth_v_dot_rhat` (likewise), and the derivatives of the supertranslation for `h` and `sigma` (lines 473-515). -/
structure GridDir where
  k : ℝ
  alpha : ℝ
  ethAlpha : ℂ
  ethVr : ℂ
  derivH : ℂ
  derivSigma : ℂ

/-- `eth_uprm_over_kconformal` (lines 516-524). -/
noncomputable def gridE (g : ℝ) (d : GridDir) (t : ℝ) : ℂ := ((t - d.alpha : ℝ) : ℂ) * g * d.k * d.ethVr - d.ethAlpha

open Verif.Weights (psi4) in
/-- The loop over the Weyl scalars of higher index (lines 526-552); `other DT` is the field of type `DT` if it has been supplied. -/
noncomputable def gridSum (g : ℝ) (dt : Int) (d : GridDir) (t : ℝ) (f : ℂ) (other : Int → Option ℂ) : Py ℂ :=
  (pyRange (dt + 1) (psi4 + 1)).foldlM (fun f DT =>
    match other DT with
    | none => .error .valueError
    | some x => .ok (f + (Nat.choose (5 - dt).toNat (5 - DT).toNat : ℂ) * x * gridE g d t ^ (DT - dt).toNat)) f

open Verif.Weights (psi0 psi1 psi2 psi3 sigma h) in
/-- The field at one time in one direction after lines 485-558: `f` is the field itself.  `trivial` says that there is neither a boost nor a supertranslation beyond `ell = 0`. -/
noncomputable def gridMixed (g : ℝ) (trivial : Bool) (dt : Int) (d : GridDir) (t : ℝ) (f : ℂ) (other : Int → Option ℂ) : Py ℂ :=
  if trivial then .ok f
  else if dt = h then .ok (f - d.derivH)
  else if dt = sigma then .ok (f - d.derivSigma)
  else if dt ∈ [psi0, psi1, psi2, psi3] then gridSum g dt d t f other
  else .ok f

/-- ... and after line 559.  `w` is the conformal weight. -/
noncomputable def gridValue (g : ℝ) (trivial : Bool) (dt : Int) (w : Int) (d : GridDir) (t : ℝ) (f : ℂ) (other : Int → Option ℂ) : Py ℂ := do
  let f ← gridMixed g trivial dt d t f other
  pure (f * ((d.k : ℂ) ^ w))

/-- The new time slices (lines 564-568). -/
noncomputable def gridSlices (g alpha0 : ℝ) (t : List ℝ) (dirs : List GridDir) : Py (List ℝ) := do
  let uprm := t.map fun t => (1 / g) * (t - alpha0)
  let first ← pyGet t 0
  let last ← pyGet t (-1)
  let lo ← npMax (dirs.map fun d => d.k * (first - d.alpha))
  let hi ← npMin (dirs.map fun d => d.k * (last - d.alpha))
  pure (uprm.filter fun t => decide (t ≥ lo ∧ t ≤ hi))

/-! ## The distorted grid -/

/-- The vector product. -/
def cross (a b : Fin 3 → ℝ) : Fin 3 → ℝ := ![a 1 * b 2 - a 2 * b 1, a 2 * b 0 - a 0 * b 2, a 0 * b 1 - a 1 * b 0]

/-- The euclidean length, the `abs` of a quaternion without scalar part. -/
noncomputable def vabs (a : Fin 3 → ℝ) : ℝ := √(a 0 ^ 2 + a 1 ^ 2 + a 2 ^ 2)

/-- `(n * angle).exp()` for a unit vector `n`, as a quaternion. -/
noncomputable def expRotor (n : Fin 3 → ℝ) (angle : ℝ) : Quaternion ℝ :=
  ⟨Real.cos angle, Real.sin angle * n 0, Real.sin angle * n 1, Real.sin angle * n 2⟩

/-- `Theta` (line 125). -/
noncomputable def thetaOf (beta thetaprm : ℝ) : ℝ := 2 * Real.arctan (Real.exp (-Real.artanh beta) * Real.tan (thetaprm / 2))

/-- `Bprm_j_k` (lines 109-136), as a function of `r'`.  Simplified: the tolerances `3e-14` for `beta` and `1e-200` for the vector product are 0. -/
noncomputable def Bprm (beta : ℝ) (vhat rprm : Fin 3 → ℝ) : Quaternion ℝ :=
  if beta > 0 then
    let thetaprm := Real.arccos (∑ i, vhat i * rprm i)
    let theta := thetaOf beta thetaprm
    let c := cross rprm vhat
    if vabs c > 0 then expRotor (fun i => c i / vabs c) ((thetaprm - theta) / 2)
    else 1
  else 1

/-- A vector as a quaternion. -/
def vecQuat (v : Fin 3 → ℝ) : Quaternion ℝ := ⟨0, v 0, v 1, v 2⟩

/-- The vector part of `R * v * R.inverse()` for a unit quaternion `R`. -/
noncomputable def rotateVec (R : Quaternion ℝ) (v : Fin 3 → ℝ) : Fin 3 → ℝ :=
  ![(R * vecQuat v * star R).imI, (R * vecQuat v * star R).imJ, (R * vecQuat v * star R).imK]

end Verif.AbdTransform
