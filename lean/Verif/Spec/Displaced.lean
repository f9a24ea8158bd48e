import Verif.Spec.TiltedSpin
import Verif.Spec.Supertranslation

/-!
# Specification: an object that is not at the origin (C106)
-/

namespace Verif.Spec.Displaced
open Verif Verif.Charges Verif.SuperrestLoop Verif.FrameErrors Verif.SuperrestMap Verif.Spec.ChargeCov Verif.Spec.Rotation Verif.Spec.TiltedSpin Verif.Spec.Supertranslation
open Verif.AbdTransform (rotateVec)
open Verif.Spec.Bms (Rotor)

/-- The translation by `s` in time and `y` in space, followed by the rotation of the frame by `q`.  The supertranslation is `α = s + y·n`. -/
noncomputable def move (s : ℝ) (y : Fin 3 → ℝ) (q : Quaternion ℝ) : Tr :=
  let v := TransformKwargs.vectorAs (y 0) (y 1) (y 2)
  { super := fun i => if i = 0 then TransformKwargs.constantAs s else if i = 1 then v.1 else if i = 2 then v.2.1 else if i = 3 then v.2.2 else 0, rotation := q, boost := 0 }

/-- The function on the sphere by which the retarded time changes. -/
def superOf (T : Tr) : Modes := fun ell m => T.super (ell * (ell + 1) + m)

/-- The length of a vector. -/
noncomputable def length (y : Fin 3 → ℝ) : ℝ := √(y 0 ^ 2 + y 1 ^ 2 + y 2 ^ 2)

/-- No radiation. -/
def Quiet (a : Data) : Prop := ∀ d ∈ a.at', Nonradiative a.ellMax d

/-- At rest at the place `x`: no momentum, and the charge of the center of mass is `E x`. -/
def Placed (ext : Ext) (a : Data) (x : Fin 3 → ℝ) : Prop :=
  ∀ d ∈ a.at', ∃ E, 0 < E ∧ bondiFourMomentum ext.mul ext.dflt d = .ok [E, 0, 0, 0] ∧ bondiCoMCharge ext.mul d = .ok [E * x 0, E * x 1, E * x 2]

/-- There are times more than `r` after the first and before the last, at least two. -/
def Room (r : ℝ) (t : List ℝ) : Prop := ∃ t1 ∈ t, ∃ u ∈ t, ∃ v ∈ t, ∃ t2 ∈ t, t1 + r < u ∧ u < v ∧ v + r < t2

/-- `a'` are the data of `a` in another frame, at two or more times: each is that of some time of `a` in the frame that is translated (C77) and then rotated (C81). -/
structure Displaced (T : Tr) (a' a : Data) : Prop where
  ell : a'.ellMax = a.ellMax
  two : 2 ≤ a'.at'.length
  inc : (times a').Pairwise (· < ·)
  quiet : Quiet a'
  data : ∀ d' ∈ a'.at', ∃ d ∈ a.at', ∃ mid, Supertranslated a.ellMax (superOf T) d mid ∧ Rotated a.ellMax T.rotation 0 d' mid

/-- What is assumed of the product of BMS transformations and of the transformation of data without radiation, for translations and rotations: translations in space need some room, because the times at the ends are not known in all
directions (C32). -/
structure Frames (c : Calls) : Prop where
  turns : Turns c
  quiet : ∀ a s q a', UnitRotor q → Quiet a → c.transform a (turn s q) = .ok a' → Quiet a'
  compose : ∀ s1 s2 y1 y2 q1 q2, Rotor q1 → Rotor q2 → Rotor (q2 * q1) → c.compose (move s1 y1 q1) (move s2 y2 q2) = .ok (move (s1 + s2) (y2 + rotateVec q2 y1) (q2 * q1))
  transform : ∀ a s y q, y ≠ 0 → UnitRotor q → Quiet a → (times a).Pairwise (· < ·) → Room (length y) (times a) → ∃ a', c.transform a (move s y q) = .ok a' ∧ Displaced (move s y q) a' a

end Verif.Spec.Displaced
