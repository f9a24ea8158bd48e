import Mathlib.Data.Complex.BigOperators
import Mathlib.Analysis.Complex.Basic

/-!
# Specification for extrapolation: least-squares fits by polynomials
-/

namespace Verif.Spec.Extrapolate

/-- The polynomial with coefficients `c` at `x`. -/
noncomputable def poly {N : Nat} (c : Fin (N + 1) → ℂ) (x : ℝ) : ℂ := ∑ k, c k * (x : ℂ) ^ (k : Nat)

/-- The sum of the squares of the residuals. -/
noncomputable def squares {N : Nat} (s : List (ℝ × ℂ)) (c : Fin (N + 1) → ℂ) : ℝ := (s.map fun p => ‖poly c p.1 - p.2‖ ^ 2).sum

/-- A procedure that finds the polynomials with the least sum of squares of the residuals. -/
def LeastSquares (fit : List (ℝ × ℂ) → (N : Nat) → Fin (N + 1) → ℂ) : Prop :=
  ∀ s N (c : Fin (N + 1) → ℂ), squares s (fit s N) ≤ squares s c

end Verif.Spec.Extrapolate
