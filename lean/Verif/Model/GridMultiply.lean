import Verif.Model.Superrest
import Verif.Model.Wigner
import Mathlib.Analysis.SpecialFunctions.Trigonometric.Basic

/-!
# Model of `ModesTimeSeries.grid_multiply` (`scri/modes_time_series.py` lines 142-202)

The transforms are those of the external package spinsfast: `salm2map` evaluates a function with given modes on a grid, `map2salm` computes modes from values on a grid.  The first is defined here;
the second is a parameter.  Arithmetic is exact.
-/

namespace Verif.GridMultiply

open Verif Verif.Modes Verif.Superrest

/-- The spin-weighted spherical harmonic of `spherical_functions`, as a function of a rotor: `(-1)^s sqrt((2 ell + 1) / 4 pi) D^ell_{m,-s}(R)`. -/
noncomputable def Y (s ell m : Int) (R : Quaternion ℝ) : ℂ :=
  if |s| ≤ ell then (-1) ^ s.natAbs * (√((2 * ell + 1) / (4 * Real.pi)) : ℝ) * Wigner.Dlm ell R m (-s) else 0

/-- The rotor that takes z to the direction with the angles `theta`, `phi` (`exp(phi z / 2) exp(theta y / 2)`). -/
noncomputable def rotor (theta phi : ℝ) : Quaternion ℝ := (⟨Real.cos (phi / 2), 0, 0, Real.sin (phi / 2)⟩ : Quaternion ℝ) * (⟨Real.cos (theta / 2), 0, Real.sin (theta / 2), 0⟩ : Quaternion ℝ)

/-- The grid of spinsfast with `Ntheta = Nphi = n`: both poles belong to it. -/
noncomputable def nodes (n : Nat) : List (Quaternion ℝ) :=
  (List.range n).flatMap fun j : Nat => (List.range n).map fun k : Nat => rotor (Real.pi * j / ((n : ℝ) - 1)) (2 * Real.pi * k / n)

/-- The angles in `scri/waveform_grid.py` lines 129-135: the equi-angular grid with `nt` points in the polar angle, both poles included, and `np` points in the azimuth. -/
noncomputable def rect (nt np : Nat) : List (Quaternion ℝ) :=
  (List.range nt).flatMap fun j : Nat => (List.range np).map fun k : Nat => rotor (Real.pi * j / ((nt : ℝ) - 1)) (2 * Real.pi * k / np)

/-- The value of the function whose modes are `row`. -/
noncomputable def value (s ellMax : Int) (row : Row ℂ) (R : Quaternion ℝ) : ℂ := ((LMRange 0 ellMax).map fun lm => row (lmIndex lm.1 lm.2 0) * Y s lm.1 lm.2 R).sum

/-- `spinsfast.salm2map` (external) for one time. -/
noncomputable def salm2map (row : Row ℂ) (s lmax : Int) (n : Nat) : List ℂ := (nodes n).map (value s lmax row)

/-- `a * b` for arrays whose first dimension is the time, and may be 1 (lines 184, 39). -/
def broadcast (a b : List (List ℂ)) : Py (List (List ℂ)) :=
  if a.length = b.length then .ok (List.zipWith (List.zipWith (· * ·)) a b)
  else match a, b with
    | [x], b => .ok (b.map (List.zipWith (· * ·) x))
    | a, [y] => .ok (a.map fun x => List.zipWith (· * ·) x y)
    | _, _ => .error .valueError

/-- The constructor `sf.SWSH_modes.Modes(data, spin_weight=s, ell_min=0, ell_max=ellMax)` (external) for data with `cols` columns. -/
noncomputable def modes (data : List (Row ℂ)) (cols s ellMax : Int) : Py (List (Row ℂ)) :=
  if ellMax < 0 ∨ cols ≠ (ellMax + 1) ^ 2 then .error .valueError
  else .ok (data.map (modesNew s 0))

/-- `ModesTimeSeries(data, time=t)` for two-dimensional data (lines 39-46). -/
def series (data : List (Row ℂ)) (s ellMax : Int) (t : List ℝ) : Py MTS :=
  if data.length ≠ t.length ∧ data.length ≠ 1 then .error .valueError
  else .ok { s := s, ellMax := ellMax, t := t, data := data }

/-- `f.grid_multiply(g, working_ell_max=working, output_ell_max=output)` (lines 169-202). -/
noncomputable def gridMultiply (map2salm : List ℂ → Int → Int → Row ℂ) (f g : MTS) (working output : Option Int) : Py MTS :=
  let outputEllMax := output.getD f.ellMax
  let workingEllMax := working.getD (f.ellMax + g.ellMax)
  let n := (2 * workingEllMax + 1).toNat
  if f.t.length ≠ g.t.length ∨ ¬ f.t = g.t then .error .valueError
  else do
    let fGrid := f.data.map fun row => salm2map row f.s f.ellMax n
    let gGrid := g.data.map fun row => salm2map row g.s g.ellMax n
    let productGrid ← broadcast fGrid gGrid
    let s := f.s + g.s
    let product := productGrid.map fun grid => map2salm grid s workingEllMax
    let cols := min ((workingEllMax + 1) ^ 2) (lmIndex outputEllMax outputEllMax 0 + 1)
    let product ← modes product cols s outputEllMax
    series product s outputEllMax f.t

end Verif.GridMultiply
