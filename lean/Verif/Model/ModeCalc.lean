import Verif.Model.Modes
import Mathlib.Analysis.Complex.Basic
import Mathlib.Analysis.SpecialFunctions.Sqrt

/-!
# Model of the angular-momentum sums in `scri/mode_calculations.py`

Each function loops over the modes and, inside, over the times; the accumulator of one time never meets
that of another, so the model is of one time.  Real and complex numbers are exact.
-/

namespace Verif.ModeCalc
open Verif.Modes ComplexConjugate

/-- `spherical_functions.ladder_operator_coefficient(ell, m)` (external): `sqrt(ell(ell+1) - m(m+1))`. -/
noncomputable def ladder (ell m : Int) : ℝ := Real.sqrt ((ell * (ell + 1) - m * (m + 1) : Int) : ℝ)

/-- `enumerate(lm)`: mode number, L, M, in the order of the loop `for i_mode in range(lm.shape[0])`. -/
def enumLM (lm : List (Int × Int)) : List (Int × Int × Int) :=
  lm.zipIdx.map fun p => ((p.2 : Int), p.1.1, p.1.2)

/-- `Lp` of `_LVector` (`scri/mode_calculations.py` lines 73-77) and of `_LdtVector` (27-31). -/
noncomputable def Lp (d1 d2 : Row ℂ) (i L M : Int) : ℂ :=
  if M + 1 ≤ L then conj (d1 (i + 1)) * d2 i * (ladder L M : ℂ) else 0
/-- `Lm` (lines 78-82, 32-36). -/
noncomputable def Lm (d1 d2 : Row ℂ) (i L M : Int) : ℂ :=
  if M - 1 ≥ -L then conj (d1 (i - 1)) * d2 i * (ladder L (-M) : ℂ) else 0
/-- `Lz` (lines 83, 37). -/
noncomputable def Lz (d1 d2 : Row ℂ) (i _L M : Int) : ℂ := conj (d1 i) * d2 i * (M : ℂ)

/-- `_LdtVector(data, datadot, lm, Ldt)` for one time (lines 14-43); `Ldt` is passed in as zeros by
`LdtVector` (lines 46-57). -/
noncomputable def LdtVector (data datadot : Row ℂ) (lm : List (Int × Int)) : ℝ × ℝ × ℝ :=
  (enumLM lm).foldl (fun s p =>
    let lp := Lp data datadot p.1 p.2.1 p.2.2
    let lmn := Lm data datadot p.1 p.2.1 p.2.2
    let lz := Lz data datadot p.1 p.2.1 p.2.2
    (s.1 + 1 / 2 * (lp.im + lmn.im), s.2.1 + -(1 / 2) * (lp.re - lmn.re), s.2.2 + lz.im)) (0, 0, 0)

/-- `_LVector(data1, data2, lm, Lvec)` for one time (lines 60-89), called by `LVector` (92-103). -/
noncomputable def LVector (data1 data2 : Row ℂ) (lm : List (Int × Int)) : ℂ × ℂ × ℂ :=
  (enumLM lm).foldl (fun s p =>
    let lp := Lp data1 data2 p.1 p.2.1 p.2.2
    let lmn := Lm data1 data2 p.1 p.2.1 p.2.2
    let lz := Lz data1 data2 p.1 p.2.1 p.2.2
    (s.1 + 1 / 2 * (lp + lmn), s.2.1 + -(1 / 2) * Complex.I * (lp - lmn), s.2.2 + lz)) (0, 0, 0)

/-- The nine products of lines 128-172 (`_LLComparisonMatrix`) and 231-275 (`_LLMatrix`). -/
structure Prods where
  pp : ℂ
  pm : ℂ
  mp : ℂ
  mm : ℂ
  pz : ℂ
  zp : ℂ
  mz : ℂ
  zm : ℂ
  zz : ℂ

noncomputable def prods (d1 d2 : Row ℂ) (i L M : Int) : Prods where
  pp := if M + 2 ≤ L then conj (d1 (i + 2)) * d2 i * ((ladder L (M + 1) * ladder L M : ℝ) : ℂ) else 0
  pm := if M - 1 ≥ -L then conj (d1 i) * d2 i * ((ladder L (M - 1) * ladder L (-M) : ℝ) : ℂ) else 0
  mp := if M + 1 ≤ L then conj (d1 i) * d2 i * ((ladder L (-(M + 1)) * ladder L M : ℝ) : ℂ) else 0
  mm := if M - 2 ≥ -L then conj (d1 (i - 2)) * d2 i * ((ladder L (-(M - 1)) * ladder L (-M) : ℝ) : ℂ) else 0
  pz := if M + 1 ≤ L then conj (d1 (i + 1)) * d2 i * ((ladder L M * M : ℝ) : ℂ) else 0
  zp := if M + 1 ≤ L then conj (d1 (i + 1)) * d2 i * (((M + 1) * ladder L M : ℝ) : ℂ) else 0
  mz := if M - 1 ≥ -L then conj (d1 (i - 1)) * d2 i * ((ladder L (-M) * M : ℝ) : ℂ) else 0
  zm := if M - 1 ≥ -L then conj (d1 (i - 1)) * d2 i * (((M - 1) * ladder L (-M) : ℝ) : ℂ) else 0
  zz := conj (d1 i) * d2 i * (M : ℂ) ^ 2

/-- A 3×3 matrix, indexed by 0, 1, 2. -/
abbrev Mat (K : Type) := Fin 3 → Fin 3 → K

/-- `LL[a, b] += v` -/
def Mat.add {K : Type} [Add K] (A : Mat K) (a b : Fin 3) (v : K) : Mat K :=
  fun i j => if i = a ∧ j = b then A i j + v else A i j

/-- `_LLComparisonMatrix(data1, data2, lm, LL)` for one time (lines 106-192).  Line 177 adds `LyLz` to
`LL[1, 1]`; there is no line for `LL[1, 2]`. -/
noncomputable def LLComparison (data1 data2 : Row ℂ) (lm : List (Int × Int)) : Mat ℂ :=
  (enumLM lm).foldl (fun A p =>
    let q := prods data1 data2 p.1 p.2.1 p.2.2
    let A := A.add 0 0 (1 / 4 * (q.pp + q.mm + q.mp + q.pm))
    let A := A.add 0 1 (-(1 / 4) * Complex.I * (q.pp - q.mm + q.mp - q.pm))
    let A := A.add 0 2 (1 / 2 * (q.pz + q.mz))
    let A := A.add 1 0 (-(1 / 4) * Complex.I * (q.pp - q.mp + q.pm - q.mm))
    let A := A.add 1 1 (-(1 / 4) * (q.pp - q.mp - q.pm + q.mm))
    let A := A.add 1 1 (-(1 / 2) * Complex.I * (q.pz - q.mz))
    let A := A.add 2 0 (1 / 2 * (q.zp + q.zm))
    let A := A.add 2 1 (-(1 / 2) * Complex.I * (q.zp - q.zm))
    A.add 2 2 q.zz) (fun _ _ => 0)

/-- `_LLMatrix(data, lm, LL)` for one time (lines 209-295), called by `LLMatrix` (298-313). -/
noncomputable def LLMatrix (data : Row ℂ) (lm : List (Int × Int)) : Mat ℝ :=
  (enumLM lm).foldl (fun A p =>
    let q := prods data data p.1 p.2.1 p.2.2
    let xx := 1 / 4 * (q.pp + q.mm + q.mp + q.pm)
    let xy := -(1 / 4) * Complex.I * (q.pp - q.mm + q.mp - q.pm)
    let xz := 1 / 2 * (q.pz + q.mz)
    let yx := -(1 / 4) * Complex.I * (q.pp - q.mp + q.pm - q.mm)
    let yy := -(1 / 4) * (q.pp - q.mp - q.pm + q.mm)
    let yz := -(1 / 2) * Complex.I * (q.pz - q.mz)
    let zx := 1 / 2 * (q.zp + q.zm)
    let zy := -(1 / 2) * Complex.I * (q.zp - q.zm)
    let A := A.add 0 0 xx.re
    let A := A.add 0 1 ((xy + yx).re / 2)
    let A := A.add 0 2 ((xz + zx).re / 2)
    let A := A.add 1 0 ((yx + xy).re / 2)
    let A := A.add 1 1 yy.re
    let A := A.add 1 2 ((yz + zy).re / 2)
    let A := A.add 2 0 ((zx + xz).re / 2)
    let A := A.add 2 1 ((zy + yz).re / 2)
    A.add 2 2 q.zz.re) (fun _ _ => 0)

/-- `angular_velocity(W)` at one time (lines 403-430), without the frame's own velocity:
`omega = -np.linalg.solve(ll, l)`.  `solve` is a parameter: an external routine. -/
noncomputable def angularVelocity (solve : Mat ℝ → (Fin 3 → ℝ) → Py (Fin 3 → ℝ)) (data datadot : Row ℂ)
    (lm : List (Int × Int)) : Py (Fin 3 → ℝ) := do
  let l := LdtVector data datadot lm
  let ll := LLMatrix data lm
  let w ← solve ll (fun a => if a = 0 then l.1 else if a = 1 then l.2.1 else l.2.2)
  pure (fun a => -w a)

end Verif.ModeCalc
