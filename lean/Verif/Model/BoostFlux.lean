import Verif.Model.Flux
import Verif.Model.Ladder

/-!
# Model of `boost_flux` and `poincare_fluxes` (`scri/flux.py` lines 444-797)

Real and complex numbers are exact; the Clebsch-Gordan coefficients, the waveform and `matrix_expectation_value` are those of
`Verif.Model.Flux`, `apply_eth` is that of `Verif.Model.Ladder`.  The checks `isinstance(h, WaveformModes)` are not modelled: the
arguments have this type.
-/

namespace Verif.BoostFlux
open Verif.Modes Verif.Slicing Verif.Flux Verif.Ladder

/-- `eth_chi_z(ell_min, ell_max, s)` before the decorator (lines 480-499). -/
noncomputable def ethChiZ (s : Int) (ellMin ellMax : Int) : List Entry :=
  ellLoop ellMin ellMax fun ell ellp m =>
    if m < -ellp ∨ m > ellp then none
    else some ⟨ellp, m, ell, m,
      ((Real.sqrt ((2 * ell + 1) / (2 * ellp + 1)) * (Real.sqrt 2 * cg ell m 0 ellp) * cg ell (-s) (-1) ellp : ℝ) : ℂ)⟩

/-- `ethbar_chi_z(ell_min, ell_max, s)` before the decorator (lines 501-520). -/
noncomputable def ethbarChiZ (s : Int) (ellMin ellMax : Int) : List Entry :=
  ellLoop ellMin ellMax fun ell ellp m =>
    if m < -ellp ∨ m > ellp then none
    else some ⟨ellp, m, ell, m,
      ((Real.sqrt ((2 * ell + 1) / (2 * ellp + 1)) * (Real.sqrt 2 * cg ell m 0 ellp) * cg ell (-s - 1) 1 ellp : ℝ) : ℂ)⟩

/-- `mat_el_eth_chi(s, l3, m3, 1, m1, l2, m2)` (lines 546-549). -/
noncomputable def matElEthChi (s l3 m1 l2 m2 : Int) : ℝ :=
  Real.sqrt ((2 * 1 + 1) * (2 * l2 + 1) / (4 * Real.pi * (2 * l3 + 1))) * (Real.sqrt 2 * cg' m1 l2 m2 l3) * cg' (-1) l2 (-s) l3

/-- `eth_chi_plusminus(ell_min, ell_max, sign, s)` before the decorator (lines 526-559), for `sign = ±1`. -/
noncomputable def ethChiPM (sign s : Int) (ellMin ellMax : Int) : List Entry :=
  ellLoop ellMin ellMax fun ell ellp m =>
    let mp := m + sign
    if mp < -ellp ∨ mp > ellp then none
    else some ⟨ellp, mp, ell, m, ((-1 * sign * Real.sqrt (8 * Real.pi / 3) * matElEthChi s ellp sign ell m : ℝ) : ℂ)⟩

/-- `mat_el_ethbar_chi(s, l3, m3, 1, m1, l2, m2)` (lines 584-587). -/
noncomputable def matElEthbarChi (s l3 m1 l2 m2 : Int) : ℝ :=
  Real.sqrt ((2 * 1 + 1) * (2 * l2 + 1) / (4 * Real.pi * (2 * l3 + 1))) * (Real.sqrt 2 * cg' m1 l2 m2 l3) * cg' 1 l2 (-1 - s) l3

/-- `ethbar_chi_plusminus(ell_min, ell_max, sign, s)` before the decorator (lines 566-597), for `sign = ±1`. -/
noncomputable def ethbarChiPM (sign s : Int) (ellMin ellMax : Int) : List Entry :=
  ellLoop ellMin ellMax fun ell ellp m =>
    let mp := m + sign
    if mp < -ellp ∨ mp > ellp then none
    else some ⟨ellp, mp, ell, m, ((-1 * sign * Real.sqrt (8 * Real.pi / 3) * matElEthbarChi s ellp sign ell m : ℝ) : ℂ)⟩

/-- A copy of the waveform whose data are `w.eth` or `w.ethbar` (lines 637-650; the properties are `apply_eth(operations="+")` and
`apply_eth(operations="-")`, `scri/waveform_modes.py` lines 564-572).  The copy keeps the data type, hence the spin weight. -/
noncomputable def withEth (op : Char) (a : Modes) : Py Modes := do
  let rows ← a.w.data.mapM fun r => do
    let row ← applyEth (.string [op]) a.spin a.w.ellMin a.w.ellMax "NP" (fun i => r.getD i.toNat 0)
    pure ((List.range r.length).map fun i : Nat => row i)
  pure ⟨a.spin, { a.w with data := rows }⟩

/-- The waveforms in the sums. -/
structure Waves where
  h : Modes
  hdot : Modes
  ethH : Modes
  ethbarH : Modes
  ethHdot : Modes
  ethbarHdot : Modes

/-- Lines 637-650. -/
noncomputable def waves (h hdot : Modes) : Py Waves := do
  let eh ← withEth '+' h
  let bh ← withEth '-' h
  let ed ← withEth '+' hdot
  let bd ← withEth '-' hdot
  pure ⟨h, hdot, eh, bh, ed, bd⟩

/-- `(1/8) (b1 - b2 + 6 b3 + b4 - b5 + 6 b6) - (1/2) t b9 - (1/4) (b7 - b8)` (lines 694-742), at one time. -/
noncomputable def component (t : ℝ) (b1 b2 b3 b4 b5 b6 b7 b8 b9 : ℂ) : ℂ :=
  1 / 8 * (b1 - b2 + 6 * b3 + b4 - b5 + 6 * b6) - 1 / 2 * (t * b9) - 1 / 4 * (b7 - b8)

/-- `component` at each time. -/
noncomputable def componentsOf (t : List ℝ) (b1 b2 b3 b4 b5 b6 b7 b8 b9 : List ℂ) : List ℂ :=
  (List.range t.length).map fun k => component (t.getD k 0) (b1.getD k 0) (b2.getD k 0) (b3.getD k 0) (b4.getD k 0) (b5.getD k 0)
    (b6.getD k 0) (b7.getD k 0) (b8.getD k 0) (b9.getD k 0)

/-- The nine expectation values for one of `plus`, `minus` and `z` (lines 661-689) and their sum (lines 694-742).  `p s`, `e s` and `b s`
are the generators `p_*`, `eth_chi_*` and `ethbar_chi_*`.  The code evaluates the values for `plus` and `minus` in turn; all evaluations
are pure, so only which error is raised first could depend on this, and all are `ValueError`s. -/
noncomputable def direction (interp : WM ℝ Unit ℂ → List ℝ → WM ℝ Unit ℂ) (W : Waves) (p e b : Int → Int → Int → List Entry) : Py (List ℂ) := do
  let b1 ← expectation interp W.ethbarHdot (dec (p (-3))) W.ethbarH false false
  let b2 ← expectation interp W.ethHdot (dec (p (-1))) W.ethH false false
  let b3 ← expectation interp W.hdot (dec (p (-2))) W.h false false
  let b4 ← expectation interp W.ethbarH (dec (p (-3))) W.ethbarHdot false false
  let b5 ← expectation interp W.ethH (dec (p (-1))) W.ethHdot false false
  let b6 ← expectation interp W.h (dec (p (-2))) W.hdot false false
  let b7 ← expectation interp W.ethHdot (dec (e (-2))) W.h false false
  let b8 ← expectation interp W.h (dec (b (-2))) W.ethHdot false false
  let b9 ← expectation interp W.hdot (dec (p (-2))) W.hdot false false
  pure (componentsOf W.h.w.t b1.2 b2.2 b3.2 b4.2 b5.2 b6.2 b7.2 b8.2 b9.2)

/-- `boost_flux(h, hdot)` (lines 444-747).  `hdot` is given with its data type, or `None`. -/
noncomputable def boostFlux (interp : WM ℝ Unit ℂ → List ℝ → WM ℝ Unit ℂ) (dataType spin : Int)
    (dot : WM ℝ Unit ℂ → WM ℝ Unit ℂ) (h : WM ℝ Unit ℂ) (hdot : Option (Int × Modes)) : Py (List (ℝ × ℝ × ℝ)) := do
  if dataType ≠ Weights.h then .error .valueError
  let hd ← givenHdot spin dot h hdot
  let W ← waves ⟨spin, h⟩ hd
  let p ← direction interp W (pPM 1) (ethChiPM 1) (ethbarChiPM 1)
  let m ← direction interp W (pPM (-1)) (ethChiPM (-1)) (ethbarChiPM (-1))
  let z ← direction interp W pZ ethChiZ ethbarChiZ
  pure (combine (-32 * Real.pi) p m z)

/-- `poincare_fluxes(h, hdot)` (lines 750-797).  The data type of the chosen `hdot` is `hdot`, so `energy_flux` and `momentum_flux` use
it as it is, and `angular_momentum_flux` and `boost_flux` accept it. -/
noncomputable def poincareFluxes (interp : WM ℝ Unit ℂ → List ℝ → WM ℝ Unit ℂ) (dataType spin : Int)
    (dot : WM ℝ Unit ℂ → WM ℝ Unit ℂ) (h : WM ℝ Unit ℂ) (hdot : Option (Int × Modes)) :
    Py (List ℝ × List (ℝ × ℝ × ℝ) × List (ℝ × ℝ × ℝ) × List (ℝ × ℝ × ℝ)) := do
  if dataType ≠ Weights.h then .error .valueError
  let hd ← givenHdot spin dot h hdot
  let e ← energyFlux Weights.hdot dot hd.w
  let p ← momentumFlux interp Weights.hdot hd.spin dot hd.w
  let j ← angularMomentumFlux interp dataType spin dot h (some (Weights.hdot, hd))
  let b ← boostFlux interp dataType spin dot h (some (Weights.hdot, hd))
  pure (e, p, j, b)

end Verif.BoostFlux
