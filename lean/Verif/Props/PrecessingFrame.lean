import Verif.Props.Precessing

/-!
# C93: the whole frame up to the merger
-/

namespace Verif.Props.PrecessingFrame
open Verif Verif.Samples Verif.Precessing Verif.Props.Precessing

/-- The rotation by the angle `o` about the horizontal axis with the azimuth `p`. -/
noncomputable def tilt (o p : ℝ) : Quaternion ℝ := ⟨Real.cos (o / 2), Real.sin (o / 2) * Real.cos p, Real.sin (o / 2) * Real.sin p, 0⟩

theorem tilt_eq (o p : ℝ) : expZ p * expX o * star (expZ p) = tilt o p := by
  have z : ∀ x, (expZ x).re = Real.cos (x / 2) ∧ (expZ x).imI = 0 ∧ (expZ x).imJ = 0 ∧ (expZ x).imK = Real.sin (x / 2) := fun x => ⟨rfl, rfl, rfl, rfl⟩
  have x : (expX o).re = Real.cos (o / 2) ∧ (expX o).imI = Real.sin (o / 2) ∧ (expX o).imJ = 0 ∧ (expX o).imK = 0 := ⟨rfl, rfl, rfl, rfl⟩
  obtain ⟨z1, z2, z3, z4⟩ := z p
  obtain ⟨x1, x2, x3, x4⟩ := x
  have s := Real.sin_sq_add_cos_sq (p / 2)
  have c2 : Real.cos p = Real.cos (p / 2) ^ 2 - Real.sin (p / 2) ^ 2 := by
    rw [show p = 2 * (p / 2) by ring, Real.cos_two_mul]
    rw [show 2 * (p / 2) / 2 = p / 2 by ring]
    linear_combination s
  have s2 : Real.sin p = 2 * Real.sin (p / 2) * Real.cos (p / 2) := by
    conv_lhs => rw [show p = 2 * (p / 2) by ring, Real.sin_two_mul]
  refine Quaternion.ext _ _ ?_ ?_ ?_ ?_
  · simp only [Quaternion.re_mul, Quaternion.imI_mul, Quaternion.imJ_mul, Quaternion.imK_mul, Quaternion.re_star, Quaternion.imI_star, Quaternion.imJ_star, Quaternion.imK_star, z1, z2, z3, z4, x1, x2, x3, x4]
    change _ = Real.cos (o / 2)
    linear_combination Real.cos (o / 2) * s
  · simp only [Quaternion.re_mul, Quaternion.imI_mul, Quaternion.imJ_mul, Quaternion.imK_mul, Quaternion.re_star, Quaternion.imI_star, Quaternion.imJ_star, Quaternion.imK_star, z1, z2, z3, z4, x1, x2, x3, x4]
    change _ = Real.sin (o / 2) * Real.cos p
    rw [c2]
    ring
  · simp only [Quaternion.re_mul, Quaternion.imI_mul, Quaternion.imJ_mul, Quaternion.imK_mul, Quaternion.re_star, Quaternion.imI_star, Quaternion.imJ_star, Quaternion.imK_star, z1, z2, z3, z4, x1, x2, x3, x4]
    change _ = Real.sin (o / 2) * Real.sin p
    rw [s2]
    ring
  · simp only [Quaternion.re_mul, Quaternion.imI_mul, Quaternion.imJ_mul, Quaternion.imK_mul, Quaternion.re_star, Quaternion.imI_star, Quaternion.imJ_star, Quaternion.imK_star, z1, z2, z3, z4, x1, x2, x3, x4]
    change _ = (0 : ℝ)
    ring

/-- Without nutation the frame is the rotation about the `z` axis by the phase of the orbit, followed by a tilt. -/
theorem frame_tilt (orb prec op : ℝ) : frameAt orb 0 prec op = tilt op prec * ⟨Real.cos (orb / 2), 0, 0, Real.sin (orb / 2)⟩ := by
  have one : expZ orb * star (expZ orb) = 1 := by rw [Quaternion.self_mul_star, unit_expZ, Quaternion.coe_one]
  unfold frameAt
  rw [expX_zero, mul_one, one, one_mul, tilt_eq]
  rfl

variable {E : Ext} {a : Args} {w : Wave} {p : Pieces} (b : Built E a w p)
include b

/-- C93: up to the merger and up to a constant rotation from the left, the frame is the rotation about the `z` axis by the phase of the orbit, followed by the tilt by the angle of the cone, about the horizontal axis whose
azimuth is the phase divided by `precession_relative_rate`. -/
theorem precession_frame {k : Nat} {u : ℝ} (hk : w.t[k]? = some u) (h0 : u ≤ p.r0) :
    w.frame[k]? = some (star (E.qsqrt p.f0) * (tilt (a.openingAngle + a.openingDot.getD (2 * a.openingAngle / (p.r1 - a.t0)) * u) (p.phi k / a.relativeRate) *
      ⟨Real.cos (p.phi k / 2), 0, 0, Real.sin (p.phi k / 2)⟩)) := by
  have hkl := (List.getElem?_eq_some_iff.1 hk).1
  rw [b.frame.item k hkl, (b.ringing.early k u hk h0).1, mul_zero, b.frame.prec_early k u hk h0, b.frame.op_early k u hk h0, frame_tilt]

/-- C93: from the end of the transition on, with no opening angle left, the frame turns about the `z` axis with the phase, after the tilt by the nutation in the frame that turns. -/
theorem nutation_frame {k : Nat} {u : ℝ} (hk : w.t[k]? = some u) (h0 : p.r0 < u) (h1 : p.r1 ≤ u) (hop : p.op k = 0) :
    w.frame[k]? = some (star (E.qsqrt p.f0) * (tilt (a.nutationAngle.getD (a.openingAngle / 10)) (p.phi k) * ⟨Real.cos (p.phi k / 2), 0, 0, Real.sin (p.phi k / 2)⟩)) := by
  have hkl := (List.getElem?_eq_some_iff.1 hk).1
  have one : ∀ x, expZ x * star (expZ x) = 1 := fun x => by rw [Quaternion.self_mul_star, unit_expZ, Quaternion.coe_one]
  rw [b.frame.item k hkl, (b.ringing.late k u hk h0 h1).1, mul_one, hop]
  unfold frameAt
  rw [expX_zero, mul_one, tilt_eq, mul_assoc (tilt _ _) (expZ _) (star (expZ _)), one, mul_one]
  rfl

end Verif.Props.PrecessingFrame
