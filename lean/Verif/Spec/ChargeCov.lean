import Verif.Spec.Balance
import Verif.Spec.AbdModes
import Verif.Spec.Rotation

/-!
# Specification: data in a rotated frame
-/

namespace Verif.Spec.ChargeCov
open Verif.Charges
open Verif.Spec.Rotation (rot)

/-- `g` are the modes of the function of spin weight `s` with the modes `f`, `ell <= L`, with respect to the basis rotated by `Q`. -/
def RotatedModes (L s : Int) (Q : Quaternion ℝ) (g f : Modes) : Prop := ∀ ell m, |s| ≤ ell → ell ≤ L → |m| ≤ ell → g ell m = rot ell Q (f ell) m

/-- The same data in the frame rotated by `Q`, with the origin of time moved by `tau`. -/
structure Rotated (L : Int) (Q : Quaternion ℝ) (tau : ℝ) (d' d : Abd) : Prop where
  t : d'.t = d.t - tau
  psi1 : RotatedModes L 1 Q d'.psi1 d.psi1
  psi2 : RotatedModes L 0 Q d'.psi2 d.psi2
  sigma : RotatedModes L 2 Q d'.sigma d.sigma
  sigmaDot : RotatedModes L 2 Q d'.sigmaDot d.sigmaDot

/-- The derivative of a series at the time with number `i` is a sum over its values, with weights that depend on the times, but not on their origin. -/
def Derivative (w : List ℝ → Nat → Nat → ℝ) : Prop := ∀ (t : List ℝ) (tau : ℝ), w (t.map (· - tau)) = w t

/-- The data at the time with number `i`. -/
noncomputable def dataAt (w : List ℝ → Nat → Nat → ℝ) (a : AbdModes.Abd) (i : Nat) : Abd where
  t := a.t.getD i 0
  psi1 := AbdModes.Spec.mode a 1 i
  psi2 := AbdModes.Spec.mode a 2 i
  sigma := AbdModes.Spec.mode a 5 i
  sigmaDot := fun ell m => ∑ j ∈ Finset.range a.t.length, (w a.t i j : ℂ) * AbdModes.Spec.mode a 5 j ell m

end Verif.Spec.ChargeCov
