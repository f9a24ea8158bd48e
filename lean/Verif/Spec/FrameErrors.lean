import Verif.Model.FrameErrors
import Verif.Spec.AbdFrame

/-!
# What the superrest frame is (C103)
-/

namespace Verif.Spec.FrameErrors
open Verif Verif.Charges Verif.FrameErrors Verif.Spec.AbdFrame

/-- Data that can be looked at: two or more increasing times, and at each of them an energy larger than the momentum. -/
structure Proper (ext : Ext) (a : Data) : Prop where
  two : 2 ≤ a.at'.length
  inc : (a.at'.map (·.t)).Pairwise (· < ·)
  massive : ∀ d ∈ a.at', ∃ E p1 p2 p3, bondiFourMomentum ext.mul ext.dflt d = .ok [E, p1, p2, p3] ∧ 0 < E ∧ p1 ^ 2 + p2 ^ 2 + p3 ^ 2 < E ^ 2
  ell : 1 ≤ a.ellMax

/-- The charge of the center of mass is 0 at all times. -/
def Centered (ext : Ext) (a : Data) : Prop := ∀ d ∈ a.at', bondiCoMCharge ext.mul d = .ok [0, 0, 0]

/-- The dimensionless spin at one time. -/
def HasSpin (ext : Ext) (d : Abd) (s : Fin 3 → ℝ) : Prop :=
  ∃ N1 N2 N3 J1 J2 J3 E p1 p2 p3, bondiBoostCharge ext.mul d = .ok [N1, N2, N3] ∧ bondiAngularMomentum ext.mul d = .ok [J1, J2, J3] ∧ bondiFourMomentum ext.mul ext.dflt d = .ok [E, p1, p2, p3] ∧
    s = dimensionlessSpin ![N1, N2, N3] ![J1, J2, J3] E ![p1, p2, p3]

/-- The spin points to the positive `z` axis at all times. -/
def Upright (ext : Ext) (a : Data) : Prop := ∀ d ∈ a.at', ∃ s, HasSpin ext d s ∧ s 0 = 0 ∧ s 1 = 0 ∧ 0 < s 2

/-- There is a time at which the spin vanishes. -/
def SpinVanishes (ext : Ext) (a : Data) : Prop := ∃ d ∈ a.at', HasSpin ext d 0

/-- At the time nearest to 0 the supermomentum has no modes with `ell >= 2`, or the same as the target. -/
def Nice (ext : Ext) (target : Option Target) (a : Data) : Prop :=
  ∃ k d f, Nearest (a.at'.map (·.t)) 0 k ∧ a.at'[k]? = some d ∧ supermomentum (ext.prod d) d "moreschi" false = .ok f ∧
    match target with
    | none => ∀ ell m, 2 ≤ ell → ell ≤ a.ellMax → -ell ≤ m → m ≤ ell → f ell m = 0
    | some T => ∃ j, Nearest T.t 0 j ∧ ∀ ell m, 2 ≤ ell → ell ≤ a.ellMax → -ell ≤ m → m ≤ ell → f ell m = T.modes j ell m

end Verif.Spec.FrameErrors
