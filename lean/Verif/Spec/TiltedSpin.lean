import Verif.Spec.SuperrestMap
import Verif.Spec.ChargeCov
import Verif.Spec.Bms

/-!
# Specification: a spin that is not along `z` (C105)
-/

namespace Verif.Spec.TiltedSpin
open Verif Verif.Charges Verif.SuperrestLoop Verif.FrameErrors Verif.SuperrestMap Verif.Spec.FrameErrors Verif.Spec.ChargeCov Verif.Spec.Rotation
open Verif.Spec.Bms (Rotor)

/-- The time translation by `s` and the rotation of the frame by `q`. -/
noncomputable def turn (s : ℝ) (q : Quaternion ℝ) : Tr := { super := fun i => if i = 0 then TransformKwargs.constantAs s else 0, rotation := q, boost := 0 }

/-- The same data in the frame rotated by `q`, with the origin of time moved by `s` (see C81). -/
def Moved (q : Quaternion ℝ) (s : ℝ) (a' a : Data) : Prop := a'.ellMax = a.ellMax ∧ List.Forall₂ (Rotated a.ellMax q s) a'.at' a.at'

/-- What is assumed of the product of BMS transformations (for the code: C36, C97; it fails for the rotor -1) and of the transformation of data (C61, C81), for rotations and time translations only. -/
structure Turns (c : Calls) : Prop where
  compose : ∀ s1 s2 q1 q2, Rotor q1 → Rotor q2 → Rotor (q2 * q1) → c.compose (turn s1 q1) (turn s2 q2) = .ok (turn (s1 + s2) (q2 * q1))
  transform : ∀ a s q, UnitRotor q → ∃ a', c.transform a (turn s q) = .ok a' ∧ Moved q s a' a
  same : ∀ a, c.transform a Tr.one = .ok a

/-- At all times the spin has the direction `n`. -/
def Directed (ext : Ext) (a : Data) (n : Fin 3 → ℝ) : Prop := ∀ d ∈ a.at', ∃ k : ℝ, 0 < k ∧ HasSpin ext d (k • n)

/-- The supermomentum is that of a mass at rest, at all times, with no modes but the first. -/
def Plain (ext : Ext) (a : Data) : Prop :=
  ∃ M : ℝ, 0 < M ∧ ∀ d ∈ a.at', ∃ f, supermomentum (ext.prod d) d "moreschi" false = .ok f ∧ ∀ ell m, 0 ≤ ell → ell ≤ a.ellMax → |m| ≤ ell → f ell m = if ell = 0 then (-M : ℂ) else 0

end Verif.Spec.TiltedSpin
