import Verif.Model.Slicing
import Verif.Model.ModeCalc
import Verif.Model.Weights
import Verif.Model.Intersection
import Mathlib.Analysis.SpecialFunctions.Trigonometric.Basic

/-!
# Model of `scri/flux.py`: expectation values and the fluxes of energy, momentum, angular momentum

Numbers are exact.  A waveform is `WM ℝ Unit ℂ`: its frame plays no role in this file and is represented by
one unit per time.  Time derivatives (`data_dot`) and interpolation are parameters.
-/

namespace Verif.Flux
open Verif.Modes Verif.Slicing Verif.ModeCalc ComplexConjugate

/-- A tuple `(ellp, mp, ell, m, value)` yielded by a matrix-element generator. -/
structure Entry where
  j : Int
  n : Int
  l : Int
  m : Int
  val : ℂ

/-- `swsh_indices_to_matrix_indices` (lines 11-37) applied to the tuples yielded by the generator: rows,
columns, values.  The rows, columns and values are unpacked from a `zip`, which fails if there are none. -/
noncomputable def toMatrix (ellMin : Int) (gen : List Entry) : Py (List (Int × Int × ℂ)) :=
  if gen.isEmpty then .error .valueError
  else .ok (gen.map fun e => (lmIndex e.j e.n ellMin, lmIndex e.l e.m ellMin, e.val))

/-- `d[i, c]` in a compiled function: negative columns count from the end, no other check is made, so that
reading outside is an error that need not be reported. -/
def cell {K : Type} (d : List (List K)) (i : Nat) (c : Int) : Py K :=
  match d[i]? with
  | none => .error .outOfBounds
  | some r => match pyGet r c with
    | .ok v => .ok v
    | .error _ => .error .outOfBounds

/-- `sparse_expectation_value(abar, rows, columns, values, b)` at one time (lines 73-77). -/
noncomputable def sparseAt (abar b : List (List ℂ)) (entries : List (Int × Int × ℂ)) (i : Nat) : Py ℂ :=
  entries.foldlM (fun acc e => do
    let x ← cell abar i e.1
    let y ← cell b i e.2.1
    pure (acc + x * y * e.2.2)) 0

/-- `sparse_expectation_value` (lines 40-78). -/
noncomputable def sparse (abar b : List (List ℂ)) (entries : List (Int × Int × ℂ)) : Py (List ℂ) :=
  (List.range abar.length).mapM (sparseAt abar b entries)

/-- A `WaveformModes` with its spin weight. -/
structure Modes where
  spin : Int
  w : WM ℝ Unit ℂ

/-- The choice of `LM_clip` (lines 130-140): start and stop. -/
def clipLM (a b : Modes) (allowLM : Bool) : Py (Int × Int) :=
  if a.w.ellMin ≠ b.w.ellMin ∨ a.w.ellMax ≠ b.w.ellMax then
    if allowLM then
      let start := max a.w.ellMin b.w.ellMin
      let stop := min a.w.ellMax b.w.ellMax + 1
      if start ≥ stop then .error .valueError else .ok (start, stop)
    else .error .valueError
  else .ok (a.w.ellMin, a.w.ellMax + 1)

/-- The choice of `t_clip` (lines 142-149). -/
noncomputable def clipT (a b : Modes) (allowT : Bool) : Py (Option (List ℝ)) :=
  open Classical in
  if a.w.t ≠ b.w.t then
    if allowT then do
      let t ← Intersection.intersection a.w.t b.w.t none none none
      pure (some t)
    else .error .valueError
  else .ok none

/-- `matrix_expectation_value(a, M, b, allow_LM_differ, allow_times_differ)` (lines 81-179).  `M` is the
function produced by the decorator; `interp` is `WaveformModes.interpolate`. -/
noncomputable def expectation (interp : WM ℝ Unit ℂ → List ℝ → WM ℝ Unit ℂ) (a : Modes)
    (M : Int → Int → Py (List (Int × Int × ℂ))) (b : Modes) (allowLM allowT : Bool) : Py (List ℝ × List ℂ) := do
  if a.spin ≠ b.spin then .error .valueError
  let (start, stop) ← clipLM a b allowLM
  let tClip ← clipT a b allowT
  let A ← getitem a.w (.tuple [.slice ⟨none, none, none⟩, .slice ⟨some start, some stop, none⟩])
  let B ← getitem b.w (.tuple [.slice ⟨none, none, none⟩, .slice ⟨some start, some stop, none⟩])
  let (times, A, B) := match tClip with
    | none => (a.w.t, A, B)
    | some t => (t, interp A t, interp B t)
  let entries ← M start (stop - 1)
  let v ← sparse (A.data.map (·.map conj)) B.data entries
  pure (times, v)

/-- `energy_flux(h)` after the choice of `hdot` (lines 203-207), at one time:
`np.einsum("ij, ij -> i", hdot.conjugate(), hdot).real / (16 pi)`. -/
noncomputable def energyAt (hdot : List ℂ) : ℝ := (hdot.map fun z => conj z * z).sum.re / (16 * Real.pi)

/-- The data type check of `energy_flux` (194-201) and `momentum_flux` (318-327): the waveform `hdot` used. -/
noncomputable def chooseHdot (dataType : Int) (dot : WM ℝ Unit ℂ → WM ℝ Unit ℂ) (w : WM ℝ Unit ℂ) : Py (WM ℝ Unit ℂ) :=
  if dataType = Weights.hdot then .ok w
  else if dataType = Weights.h then .ok (dot w)
  else .error .valueError

/-- `energy_flux(h)` (lines 182-210). -/
noncomputable def energyFlux (dataType : Int) (dot : WM ℝ Unit ℂ → WM ℝ Unit ℂ) (w : WM ℝ Unit ℂ) : Py (List ℝ) := do
  let hd ← chooseHdot dataType dot w
  pure (hd.data.map energyAt)

/-- `clebsch_gordan(l, m, 1, q, lp, m + q)` of spherical_functions (external): the standard table. -/
noncomputable def cg (l m q lp : Int) : ℝ :=
  let M : Int := m + q
  if 0 ≤ l ∧ 0 ≤ lp ∧ -l ≤ m ∧ m ≤ l ∧ -lp ≤ M ∧ M ≤ lp ∧ 1 ≤ l + lp then
    if lp = l + 1 then
      if q = 1 then Real.sqrt ((l + M) * (l + M + 1) / ((2 * l + 1) * (2 * l + 2)))
      else if q = 0 then Real.sqrt ((l - M + 1) * (l + M + 1) / ((2 * l + 1) * (l + 1)))
      else if q = -1 then Real.sqrt ((l - M) * (l - M + 1) / ((2 * l + 1) * (2 * l + 2)))
      else 0
    else if lp = l then
      if q = 1 then -Real.sqrt ((l + M) * (l - M + 1) / (2 * l * (l + 1)))
      else if q = 0 then M / Real.sqrt (l * (l + 1))
      else if q = -1 then Real.sqrt ((l - M) * (l + M + 1) / (2 * l * (l + 1)))
      else 0
    else if lp = l - 1 then
      if q = 1 then Real.sqrt ((l - M) * (l - M + 1) / (2 * l * (2 * l + 1)))
      else if q = 0 then -Real.sqrt ((l - M) * (l + M) / (l * (2 * l + 1)))
      else if q = -1 then Real.sqrt ((l + M + 1) * (l + M) / (2 * l * (2 * l + 1)))
      else 0
    else 0
  else 0

/-- `clebsch_gordan(1, q, l, m, lp, m + q)` (external): the same with the two angular momenta exchanged,
`(-1)^(l + 1 - lp)` times `clebsch_gordan(l, m, 1, q, lp, m + q)`. -/
noncomputable def cg' (q l m lp : Int) : ℝ := (if (l + 1 - lp) % 2 = 0 then 1 else -1) * cg l m q lp

/-- The loops common to `p_z`, `p_plusminus` (lines 236-243, 287-295); the body yields or continues. -/
noncomputable def ellLoop (ellMin ellMax : Int) (body : Int → Int → Int → Option Entry) : List Entry :=
  (pyRange ellMin (ellMax + 1)).flatMap fun ell =>
    (pyRange (max ellMin (ell - 1)) (min ellMax (ell + 1) + 1)).flatMap fun ellp =>
      (pyRange (-ell) (ell + 1)).filterMap fun m => body ell ellp m

/-- `p_z(ell_min, ell_max, s)` before the decorator (lines 213-246). -/
noncomputable def pZ (s : Int) (ellMin ellMax : Int) : List Entry :=
  ellLoop ellMin ellMax fun ell ellp m =>
    if m < -ellp ∨ m > ellp then none
    else some ⟨ellp, m, ell, m,
      ((Real.sqrt ((2 * ell + 1) / (2 * ellp + 1)) * cg ell m 0 ellp * cg ell (-s) 0 ellp : ℝ) : ℂ)⟩

/-- `swsh_Y_mat_el(s, l3, m3, 1, m1, l2, m2)` (lines 268-285). -/
noncomputable def swshYMatEl (s l3 m1 l2 m2 : Int) : ℝ :=
  Real.sqrt ((2 * 1 + 1) * (2 * l2 + 1) / (4 * Real.pi * (2 * l3 + 1))) * cg' m1 l2 m2 l3 * cg' 0 l2 (-s) l3

/-- `p_plusminus(ell_min, ell_max, sign, s)` before the decorator (lines 249-295), for `sign = ±1`. -/
noncomputable def pPM (sign s : Int) (ellMin ellMax : Int) : List Entry :=
  ellLoop ellMin ellMax fun ell ellp m =>
    let mp := m + sign
    if mp < -ellp ∨ mp > ellp then none
    else some ⟨ellp, mp, ell, m, ((-1 * sign * Real.sqrt (8 * Real.pi / 3) * swshYMatEl s ellp sign ell m : ℝ) : ℂ)⟩

/-- `j_z(ell_min, ell_max)` before the decorator (lines 345-358). -/
noncomputable def jZ (ellMin ellMax : Int) : List Entry :=
  (pyRange ellMin (ellMax + 1)).flatMap fun ell =>
    (pyRange (-ell) (ell + 1)).map fun m => ⟨ell, m, ell, m, Complex.I * m⟩

/-- `j_plusminus(ell_min, ell_max, sign)` before the decorator (lines 361-385), for `sign = ±1`. -/
noncomputable def jPM (sign : Int) (ellMin ellMax : Int) : List Entry :=
  (pyRange ellMin (ellMax + 1)).flatMap fun ell =>
    (pyRange (-ell) (ell + 1)).filterMap fun m =>
      let mp := m + sign
      if mp < -ell ∨ mp > ell then none
      else some ⟨ell, mp, ell, m, Complex.I * (ladder ell (m * sign) : ℂ)⟩

/-- A decorated generator. -/
noncomputable def dec (gen : Int → Int → List Entry) (ellMin ellMax : Int) : Py (List (Int × Int × ℂ)) :=
  toMatrix ellMin (gen ellMin ellMax)

/-- `0.5 (p + m).real`, `0.5 (p - m).imag`, `z.real` (lines 335-338, 433-436), divided by `c`. -/
noncomputable def toXYZ (c : ℝ) (p m z : ℂ) : ℝ × ℝ × ℝ :=
  (1 / 2 * (p.re + m.re) / c, 1 / 2 * (p.im - m.im) / c, z.re / c)

/-- The three time series combined. -/
noncomputable def combine (c : ℝ) (p m z : List ℂ) : List (ℝ × ℝ × ℝ) :=
  List.zipWith (fun (pm : ℂ × ℂ) z => toXYZ c pm.1 pm.2 z) (p.zip m) z

/-- `momentum_flux(h)` (lines 303-342).  `spin` is the spin weight of the waveform. -/
noncomputable def momentumFlux (interp : WM ℝ Unit ℂ → List ℝ → WM ℝ Unit ℂ) (dataType spin : Int)
    (dot : WM ℝ Unit ℂ → WM ℝ Unit ℂ) (w : WM ℝ Unit ℂ) : Py (List (ℝ × ℝ × ℝ)) := do
  let hd ← chooseHdot dataType dot w
  let p ← expectation interp ⟨spin, hd⟩ (dec (pPM 1 (-2))) ⟨spin, hd⟩ false false
  let m ← expectation interp ⟨spin, hd⟩ (dec (pPM (-1) (-2))) ⟨spin, hd⟩ false false
  let z ← expectation interp ⟨spin, hd⟩ (dec (pZ (-2))) ⟨spin, hd⟩ false false
  pure (combine (16 * Real.pi) p.2 m.2 z.2)

/-- The `hdot` used by `angular_momentum_flux` (lines 413-421). -/
noncomputable def givenHdot (spin : Int) (dot : WM ℝ Unit ℂ → WM ℝ Unit ℂ) (h : WM ℝ Unit ℂ) : Option (Int × Modes) → Py Modes
  | none => .ok ⟨spin, dot h⟩
  | some (ty, d) => if ty ≠ Weights.hdot then .error .valueError else .ok d

/-- `angular_momentum_flux(h, hdot)` (lines 394-441).  `hdot` is given with its data type, or `None`. -/
noncomputable def angularMomentumFlux (interp : WM ℝ Unit ℂ → List ℝ → WM ℝ Unit ℂ) (dataType spin : Int)
    (dot : WM ℝ Unit ℂ → WM ℝ Unit ℂ) (h : WM ℝ Unit ℂ) (hdot : Option (Int × Modes)) : Py (List (ℝ × ℝ × ℝ)) := do
  if dataType ≠ Weights.h then .error .valueError
  let hd ← givenHdot spin dot h hdot
  let p ← expectation interp hd (dec (jPM 1)) ⟨spin, h⟩ false false
  let m ← expectation interp hd (dec (jPM (-1))) ⟨spin, h⟩ false false
  let z ← expectation interp hd (dec jZ) ⟨spin, h⟩ false false
  pure (combine (-16 * Real.pi) p.2 m.2 z.2)

end Verif.Flux
