import Mathlib.RingTheory.Derivation.Basic
import Mathlib.Tactic.LinearCombination
import Mathlib.Data.Nat.Choose.Basic
import Mathlib.Algebra.BigOperators.Group.Finset.Basic

/-!
# Specification: how the Weyl components and the shear change under a BMS transformation

The values are in a commutative ring: complex numbers (the values at a point) or functions on the sphere.  `ik` is `1/k`, `k` the conformal factor, and `e = ðu'/k`.
-/

namespace Verif.Spec.AbdTransform

open Finset

variable {A : Type*} [CommRing A]

/-- `ψₙ' = k⁻³ Σⱼ C(4-n, j) (-e)ʲ ψₙ₊ⱼ`. -/
def mix (ik e : A) (psi : Nat → A) (n : Nat) : A :=
  ik ^ 3 * ∑ j ∈ range (5 - n), (Nat.choose (4 - n) j : A) * (-e) ^ j * psi (n + j)

/-- `σ' = k⁻¹ (σ - ððα)`. -/
def shear (ik eea sigma : A) : A := ik * (sigma - eea)

/-- A boost and a supertranslation, as functions on the sphere: `u' = k (u - α)`. -/
structure Trans (A : Type*) [CommRing A] where
  k : A
  ik : A
  alpha : A
  k_ik : k * ik = 1

/-- The new time. -/
def Trans.time (T : Trans A) (u : A) : A := T.k * (u - T.alpha)

/-- `e = ðu'/k = (ðk/k) (u - α) - ðα`, for the derivative `D`. -/
def Trans.e (T : Trans A) (D : A → A) (u : A) : A := T.ik * D T.k * (u - T.alpha) - D T.alpha

/-- First `S`, then `T` (a function of the directions in the frame that `S` leads to, seen as a function of the original directions). -/
def Trans.comp (S T : Trans A) : Trans A := ⟨S.k * T.k, S.ik * T.ik, S.alpha + S.ik * T.alpha, by linear_combination T.k * T.ik * S.k_ik + T.k_ik⟩

/-- The derivative `ð'` in the frame that `S` leads to, on functions of spin weight `s`: the metric of the sphere is multiplied by `k²`. -/
def Trans.eth (S : Trans A) (D : A → A) (s : Int) (f : A) : A := S.ik * (D f - s * (S.ik * D S.k) * f)

end Verif.Spec.AbdTransform
