import Mathlib.Analysis.SpecialFunctions.Log.Basic
import Mathlib.Analysis.SpecialFunctions.Pow.Real
import Mathlib.Algebra.BigOperators.Group.Finset.Basic

/-!
# Specification of the reading of finite-radius data
-/

namespace Verif.Spec.FiniteRadius

/-- The tortoise coordinate of the areal radius `R` in the Schwarzschild geometry with the mass `E`. -/
noncomputable def rstar (E R : ℝ) : ℝ := R + 2 * E * Real.log (R / (2 * E) - 1)

/-- The rate of the proper time of the static observers of Schwarzschild, for the lapse `N`. -/
noncomputable def clock (E N R : ℝ) : ℝ := N / Real.sqrt (1 - 2 * E / R)

/-- The retarded time of sample `k`: the trapezoidal integral of the rate from the first sample, minus the tortoise coordinate. -/
noncomputable def retarded (E : ℝ) (T N R : Nat → ℝ) (k : Nat) : ℝ :=
  T 0 + (∑ i ∈ Finset.range k, (T (i + 1) - T i) * (clock E (N i) (R i) + clock E (N (i + 1)) (R (i + 1))) / 2) - rstar E (R k)

/-- `I` lists in order the samples, among `n`, that are more than `step` before every later sample. -/
def Kept (T : Nat → ℝ) (step : ℝ) (n : Nat) (I : List Nat) : Prop :=
  I.Pairwise (· < ·) ∧ ∀ k, k ∈ I ↔ k < n ∧ ∀ l, k < l → l < n → T k + step < T l

/-- `I` picks the values of `l`. -/
def at_ (l : List ℝ) (I : List Nat) (j : Nat) : ℝ := l.getD (I.getD j 0) 0

end Verif.Spec.FiniteRadius
