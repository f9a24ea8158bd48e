import Verif.Spec.Displaced
import Verif.Model.Cwwy

/-!
# Specification: an object seen from a supertranslated frame (C107)
-/

namespace Verif.Spec.Warped
open Verif Verif.Charges Verif.SuperrestLoop Verif.FrameErrors Verif.SuperrestMap Verif.Spec.Rotation Verif.Spec.TiltedSpin Verif.Spec.Supertranslation Verif.Spec.Displaced Verif.Spec.Moreschi Verif.Spec.Sphere
open Verif.AbdTransform (rotateVec)
open Verif.Spec.Bms (Rotor)

/-- The supertranslation by `s + y·n + A`, with the modes `2 <= ell <= L` of `A`, followed by the rotation of the frame by `q`. -/
noncomputable def warp (L : Int) (A : Modes) (s : ℝ) (y : Fin 3 → ℝ) (q : Quaternion ℝ) : Tr :=
  { super := fun i => if i < 4 then (move s y q).super i else cut L (Cwwy.rowOf A) i, rotation := q, boost := 0 }

/-- A real function that is not 0, without the modes of translations. -/
structure High (L : Int) (A : Modes) : Prop where
  low : ∀ ell m, ell < 2 → A ell m = 0
  real : RealFunction L A
  some : ∃ ell m, 2 ≤ ell ∧ ell ≤ L ∧ |m| ≤ ell ∧ A ell m ≠ 0

/-- The function is nowhere larger than `r`. -/
def Bounded (L : Int) (A : Modes) (r : ℝ) : Prop := ∀ θ φ, |(field 0 0 L A θ φ).re| ≤ r

/-- The data of `base` in the frame that is supertranslated by `β` (C77). -/
def Seen (β : Modes) (a base : Data) : Prop := a.ellMax = base.ellMax ∧ ∀ d ∈ a.at', ∃ p ∈ base.at', Supertranslated base.ellMax β p d

/-- After times more than `r1` from the ends are taken, there is room for `r2` between them. -/
def Ample (r1 r2 : ℝ) (t : List ℝ) : Prop := ∃ t1 ∈ t, ∃ t2 ∈ t, ∃ u ∈ t, ∃ v ∈ t, ∃ t3 ∈ t, ∃ t4 ∈ t, t1 + r1 < t2 ∧ t2 + r2 < u ∧ u < v ∧ v + r2 < t3 ∧ t3 + r1 < t4

/-- What is assumed of the product of BMS transformations and of the transformation of data without radiation, for supertranslations: with those of C106, the product with a translation, and that all times that are known in all directions are kept
(C32). -/
structure Warps (c : Calls) : Prop where
  frames : Frames c
  after : ∀ L A s, High L A → c.compose (warp L A 0 0 1) (turn s 1) = .ok (warp L A s 0 1)
  before : ∀ L A s1 s2 y1 y2 q1 q2, High L A → Rotor q1 → Rotor q2 → Rotor (q2 * q1) → c.compose (move s1 y1 q1) (warp L A s2 y2 q2) = .ok (warp L A (s1 + s2) (y2 + rotateVec q2 y1) (q2 * q1))
  transform : ∀ a A s y q r, High a.ellMax A → Bounded a.ellMax A r → UnitRotor q → Quiet a → (times a).Pairwise (· < ·) → Room (r + length y) (times a) →
    ∃ a', c.transform a (warp a.ellMax A s y q) = .ok a' ∧ Displaced (warp a.ellMax A s y q) a' a ∧
      ∀ t ∈ times a, (∃ t1 ∈ times a, t1 + (r + length y) < t) → (∃ t2 ∈ times a, t + (r + length y) < t2) → t - s ∈ times a'

end Verif.Spec.Warped
