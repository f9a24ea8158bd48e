import Verif.Model.GridMultiply
import Mathlib.Order.Interval.Finset.Basic
import Mathlib.Data.Int.Interval

/-!
# Functions on the sphere with a highest `ell`

`Y s ell m` is the spin-weighted spherical harmonic as a function of unit rotors.
-/

namespace Verif.GridMultiply.Spec

open Verif.Modes Verif.Superrest

/-- The function with the modes `c ell m`, up to `L`. -/
noncomputable def expansion (s L : Int) (c : Int → Int → ℂ) (R : Quaternion ℝ) : ℂ := ∑ ell ∈ Finset.Icc 0 L, ∑ m ∈ Finset.Icc (-ell) ell, c ell m * Y s ell m R

/-- A unit rotor. -/
def Unit (R : Quaternion ℝ) : Prop := R.re ^ 2 + R.imI ^ 2 + R.imJ ^ 2 + R.imK ^ 2 = 1

/-- The modes that are stored in a row. -/
def modesOf (row : Row ℂ) : Int → Int → ℂ := fun ell m => row (lmIndex ell m 0)

/-- The row for time `i`; a single row is meant for all times. -/
def rowAt (f : MTS) (i : Nat) : Option (Row ℂ) := if f.data.length = 1 then f.data[0]? else f.data[i]?

/-- The shapes that the constructor lets through. -/
def Shaped (f : MTS) : Prop := f.data.length = f.t.length ∨ f.data.length = 1

/-- The contract of `map2salm`: from the values, on the grid that belongs to `lmax`, of a function with modes up to `lmax` it finds these modes. -/
def Exact (map2salm : List ℂ → Int → Int → Row ℂ) : Prop :=
  ∀ (s lmax : Int) (c : Int → Int → ℂ) (ell m : Int), 1 ≤ lmax → |s| ≤ ell → ell ≤ lmax → -ell ≤ m → m ≤ ell →
    modesOf (map2salm ((nodes (2 * lmax + 1).toNat).map (expansion s lmax c)) s lmax) ell m = c ell m

end Verif.GridMultiply.Spec
