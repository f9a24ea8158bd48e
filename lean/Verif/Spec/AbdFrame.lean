import Verif.Model.AbdFrame
import Verif.Spec.SuperrestLoop
import Mathlib.Algebra.Group.Action.Defs

/-!
# Specification: mapping data to the frame of other data
-/

namespace Verif.Spec.AbdFrame
open Verif Verif.SuperrestLoop Verif.AbdFrame

/-- `i` is the number of the first of the times that are nearest to `x`. -/
def Nearest (t : List ℝ) (x : ℝ) (i : Nat) : Prop :=
  ∃ u, t[i]? = some u ∧ (∀ v ∈ t, |u - x| ≤ |v - x|) ∧ ∀ j v, j < i → t[j]? = some v → |u - x| < |v - x|

/-- Integrals of functions that are not negative are not negative, and 0 only for the function 0. -/
def PositiveIntegral (I : List ℝ → List ℝ → ℝ) : Prop := ∀ y t, y.length = t.length → t.Pairwise (· < ·) → 2 ≤ t.length → (∀ x ∈ y, 0 ≤ x) → 0 ≤ I y t ∧ (I y t = 0 ↔ ∀ x ∈ y, x = 0)

/-- Series at the times `t` with `n` modes each. -/
def Shape (t : List ℝ) (n : Nat) (a : Series) : Prop := a.length = t.length ∧ ∀ row ∈ a, row.length = n

/-- `Tries ... l b a`: the passes have given the transformations `l`, each with its error; now the transformation is `b` and the data are `a`.  In each pass the data are mapped to their superrest frame, aligned
with the target in its superrest frame in time and phase, mapped back with the inverse of the transformation of the target, and aligned again.  Without alignment, the error is that of the data. -/
inductive Tries {A B : Type} (c : Calls A B) (fix : Bool) (one : B) (interp target S : A) (T2 b0 : B) (a0 : A) : List (B × Err) → B → A → Prop
  | nil : Tries c fix one interp target S T2 b0 a0 [] b0 a0
  | aligned (l : List (B × Err)) (b b1 b2 T1 : B) (a s a1 a2 : A) (e1 e : Err) (x1 y1 x y : ℝ) : fix = true → Tries c fix one interp target S T2 b0 a0 l b a → c.superrest a = .ok (s, T1) → c.align s S = .ok (e1, x1, y1) →
      c.reorder (c.mul (c.inv T2) (c.mul (c.timePhase x1 y1) (c.mul T1 b))) = .ok b1 → c.transform interp b1 = .ok a1 → c.align a1 target = .ok (e, x, y) → c.reorder (c.mul (c.timePhase x y) b1) = .ok b2 →
      c.transform interp b2 = .ok a2 → Tries c fix one interp target S T2 b0 a0 (l ++ [(b2, e)]) b2 a2
  | unaligned (l : List (B × Err)) (b b1 T1 : B) (a s a1 : A) (e : Err) : fix = false → Tries c fix one interp target S T2 b0 a0 l b a → c.superrest a = .ok (s, T1) →
      c.reorder (c.mul (c.inv T2) (c.mul one (c.mul T1 b))) = .ok b1 → c.transform interp b1 = .ok a1 → c.relErr target a1 = .ok e → Tries c fix one interp target S T2 b0 a0 (l ++ [(b1, e)]) b1 a1

/-- The transformations act on the data as a group. -/
structure Acts {A B : Type} [Group B] [MulAction B A] (c : Calls A B) : Prop where
  transform : ∀ a b, c.transform a b = .ok (b • a)
  mul : ∀ x y, c.mul x y = x * y
  inv : ∀ x, c.inv x = x⁻¹
  reorder : ∀ x, c.reorder x = .ok x

end Verif.Spec.AbdFrame
