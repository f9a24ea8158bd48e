import Verif.Spec.Sphere
import Mathlib.Analysis.SpecialFunctions.Sqrt

/-!
# Specification: products of harmonics
-/

namespace Verif.Spec.Samples
open Verif.GridMultiply Verif.Spec.Sphere ComplexConjugate

/-- `W` gives the integrals of three harmonics, for the products of `Y s ell m` with the harmonics of spin weight 0 up to `L`, and for the modes from `a` to `b` of the product: what is
known of Wigner's 3-j symbols. -/
structure IsThreeJ (W : Int → Int → Int → Int → Int → Int → ℝ) (s ell m L a b : Int) : Prop where
  triangle : ∀ l n j, 0 ≤ l → l ≤ L → |n| ≤ l → a ≤ j → j ≤ b → ell + l < j → W l ell j n m (-(m + n)) = 0
  integral : ∀ l n j, 0 ≤ l → l ≤ L → |n| ≤ l → a ≤ j → j ≤ b → |m + n| ≤ j →
    solid (fun θ φ => conj (Y s j (m + n) (rotor θ φ)) * (Y 0 l n (rotor θ φ) * Y s ell m (rotor θ φ))) =
      (-1) ^ (s + m + n).natAbs * ((√((2 * l + 1) * (2 * ell + 1) * (2 * j + 1) / (4 * Real.pi)) : ℝ) : ℂ) * (W l ell j 0 (-s) s : ℝ) * (W l ell j n m (-(m + n)) : ℝ)

end Verif.Spec.Samples
