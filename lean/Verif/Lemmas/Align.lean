import Verif.Model.Align
import Verif.Spec.Align
import Verif.Props.AngMomCov
import Verif.Props.Dominant
import Verif.Lemmas.Superrest
import Verif.Lemmas.Bms
import Verif.Props.AbdCompose
import Verif.Props.GridBoost

/-!
# Lemmas for C75 and C76: rotors to a given axis, rotations about the z axis, and the dominant eigenvector of a rotated waveform
-/

namespace Verif.Lemmas.Align

open Verif Verif.Modes Verif.ModeCalc Verif.Align Verif.Spec.Align Verif.Spec.AngMom Verif.Spec.Rotation Verif.Props.AngMomCov Verif.Wigner
open Verif.AbdTransform (rotateVec vecQuat)

theorem unit_iff (R : Quaternion ℝ) : UnitRotor R ↔ R.re ^ 2 + R.imI ^ 2 + R.imJ ^ 2 + R.imK ^ 2 = 1 := by
  unfold UnitRotor
  rw [Quaternion.normSq_def']

theorem vecQuat_re (v : Vec) : (vecQuat v).re = 0 := rfl
theorem vecQuat_I (v : Vec) : (vecQuat v).imI = v 0 := rfl
theorem vecQuat_J (v : Vec) : (vecQuat v).imJ = v 1 := rfl
theorem vecQuat_K (v : Vec) : (vecQuat v).imK = v 2 := rfl
theorem z0 : zHat 0 = 0 := rfl
theorem z1 : zHat 1 = 0 := rfl
theorem z2 : zHat 2 = 1 := rfl

/-- The rotor that takes the z axis to a unit vector. -/
theorem rotorTo_spec (v : Vec) (hv : ∑ i, v i ^ 2 = 1) : UnitRotor (rotorTo (vecQuat v)) ∧ rotateVec (rotorTo (vecQuat v)) zHat = v := by
  have hv' : v 0 ^ 2 + v 1 ^ 2 + v 2 ^ 2 = 1 := by rw [← hv, Fin.sum_univ_three]
  set q := -(vecQuat v) * vecQuat zHat with hq
  have q0 : q.re = v 2 := by rw [hq, Quaternion.re_mul]; simp only [Quaternion.re_neg, Quaternion.imI_neg, Quaternion.imJ_neg, Quaternion.imK_neg, vecQuat_re, vecQuat_I, vecQuat_J, vecQuat_K, z0, z1, z2]; ring
  have q1 : q.imI = -v 1 := by rw [hq, Quaternion.imI_mul]; simp only [Quaternion.re_neg, Quaternion.imI_neg, Quaternion.imJ_neg, Quaternion.imK_neg, vecQuat_re, vecQuat_I, vecQuat_J, vecQuat_K, z0, z1, z2]; ring
  have q2 : q.imJ = v 0 := by rw [hq, Quaternion.imJ_mul]; simp only [Quaternion.re_neg, Quaternion.imI_neg, Quaternion.imJ_neg, Quaternion.imK_neg, vecQuat_re, vecQuat_I, vecQuat_J, vecQuat_K, z0, z1, z2]; ring
  have q3 : q.imK = 0 := by rw [hq, Quaternion.imK_mul]; simp only [Quaternion.re_neg, Quaternion.imI_neg, Quaternion.imJ_neg, Quaternion.imK_neg, vecQuat_re, vecQuat_I, vecQuat_J, vecQuat_K, z0, z1, z2]; ring
  have hn : Quaternion.normSq q = 1 := by rw [Quaternion.normSq_def', q0, q1, q2, q3]; linarith
  have ha : absQ q = 1 := by rw [absQ, hn, Real.sqrt_one]
  have hr : rotorTo (vecQuat v) = sqrtQ q := rfl
  rw [hr]
  by_cases h : 1 + v 2 = 0
  · have e : sqrtQ q = quat 0 (√(absQ q)) 0 0 := by
      unfold sqrtQ
      rw [if_neg (by rw [hn]; norm_num), if_pos (by rw [ha, q0]; exact h)]
    rw [e, ha]
    have hz : v 2 = -1 := by linarith
    have h0 : v 0 = 0 := by nlinarith [sq_nonneg (v 0), sq_nonneg (v 1)]
    have h1 : v 1 = 0 := by nlinarith [sq_nonneg (v 0), sq_nonneg (v 1)]
    rw [Real.sqrt_one]
    refine ⟨(unit_iff _).2 (by show (0:ℝ) ^ 2 + 1 ^ 2 + 0 ^ 2 + 0 ^ 2 = 1; norm_num), ?_⟩
    funext i
    fin_cases i
    · show rotateVec _ zHat 0 = v 0
      rw [Verif.Lemmas.Bms.rotateVec_0, h0]; simp [zHat, quat]
    · show rotateVec _ zHat 1 = v 1
      rw [Verif.Lemmas.Bms.rotateVec_1, h1]; simp [zHat, quat]
    · show rotateVec _ zHat 2 = v 2
      rw [Verif.Lemmas.Bms.rotateVec_2, hz]; simp [zHat, quat]
  · have e : sqrtQ q = quat ((absQ q + q.re) * √(1 / 2 / (absQ q + q.re))) (q.imI * √(1 / 2 / (absQ q + q.re))) (q.imJ * √(1 / 2 / (absQ q + q.re))) (q.imK * √(1 / 2 / (absQ q + q.re))) := by
      unfold sqrtQ
      rw [if_neg (by rw [hn]; norm_num), if_neg (by rw [ha, q0]; exact h)]
    rw [e, ha, q0, q1, q2, q3]
    have hpos : 0 < 1 + v 2 := by
      rcases lt_or_gt_of_ne h with h | h
      · nlinarith [sq_nonneg (v 0), sq_nonneg (v 1)]
      · exact h
    set c := √(1 / 2 / (1 + v 2)) with hc
    have hc2 : c ^ 2 = 1 / 2 / (1 + v 2) := Real.sq_sqrt (by positivity)
    have hc3 : c ^ 2 * (1 + v 2) = 1 / 2 := by rw [hc2]; field_simp
    refine ⟨(unit_iff _).2 ?_, ?_⟩
    · show ((1 + v 2) * c) ^ 2 + (-v 1 * c) ^ 2 + (v 0 * c) ^ 2 + (0 * c) ^ 2 = 1
      linear_combination 2 * hc3 + c ^ 2 * hv'
    · funext i
      fin_cases i
      · show rotateVec _ zHat 0 = v 0
        rw [Verif.Lemmas.Bms.rotateVec_0]
        show _ * (0 : ℝ) + _ * (0 : ℝ) + 2 * ((-v 1 * c) * (0 * c) + ((1 + v 2) * c) * (v 0 * c)) * (1 : ℝ) = v 0
        linear_combination 2 * v 0 * hc3
      · show rotateVec _ zHat 1 = v 1
        rw [Verif.Lemmas.Bms.rotateVec_1]
        show _ * (0 : ℝ) + _ * (0 : ℝ) + 2 * ((v 0 * c) * (0 * c) - ((1 + v 2) * c) * (-v 1 * c)) * (1 : ℝ) = v 1
        linear_combination 2 * v 1 * hc3
      · show rotateVec _ zHat 2 = v 2
        rw [Verif.Lemmas.Bms.rotateVec_2]
        show _ * (0 : ℝ) + _ * (0 : ℝ) + (((1 + v 2) * c) ^ 2 - (-v 1 * c) ^ 2 - (v 0 * c) ^ 2 + (0 * c) ^ 2) * (1 : ℝ) = v 2
        linear_combination 2 * v 2 * hc3 - c ^ 2 * hv'

theorem expZ_unit (x : ℝ) : UnitRotor (expZ x) := (unit_iff _).2 (by
  show Real.cos x ^ 2 + 0 ^ 2 + 0 ^ 2 + Real.sin x ^ 2 = 1
  have := Real.sin_sq_add_cos_sq x
  linarith)

theorem expZ_zHat (x : ℝ) : rotateVec (expZ x) zHat = zHat := by
  have h := Real.sin_sq_add_cos_sq x
  funext i
  fin_cases i
  · show rotateVec _ zHat 0 = 0
    rw [Verif.Lemmas.Bms.rotateVec_0]; simp [zHat, expZ, quat]
  · show rotateVec _ zHat 1 = 0
    rw [Verif.Lemmas.Bms.rotateVec_1]; simp [zHat, expZ, quat]
  · show rotateVec _ zHat 2 = 1
    rw [Verif.Lemmas.Bms.rotateVec_2]
    show _ * (0 : ℝ) + _ * (0 : ℝ) + (Real.cos x ^ 2 - 0 ^ 2 - 0 ^ 2 + Real.sin x ^ 2) * (1 : ℝ) = 1
    linarith

theorem expZ_half_turn : rotateVec (expZ (Real.pi / 2)) xHat = -xHat := by
  funext i
  fin_cases i
  · show rotateVec _ xHat 0 = -1
    rw [Verif.Lemmas.Bms.rotateVec_0]; simp [xHat, expZ, quat]
  · show rotateVec _ xHat 1 = -0
    rw [Verif.Lemmas.Bms.rotateVec_1]; simp [xHat, expZ, quat]
  · show rotateVec _ xHat 2 = -0
    rw [Verif.Lemmas.Bms.rotateVec_2]; simp [xHat, expZ, quat]

theorem unit_mul {R S : Quaternion ℝ} (hR : UnitRotor R) (hS : UnitRotor S) : UnitRotor (R * S) := by
  unfold UnitRotor at *
  rw [map_mul, hR, hS, one_mul]

/-- Rotation about the z axis only changes phases. -/
theorem rot_expZ (x : ℝ) (ell : Int) (f : Int → ℂ) (m : Int) (hm : -ell ≤ m ∧ m ≤ ell) : rot ell (expZ x) f m = f m * Complex.exp (2 * m * x * Complex.I) := by
  have hb : Rb (expZ x) = 0 := rfl
  have ha : Ra (expZ x) = Complex.exp (x * Complex.I) := by
    rw [Complex.exp_mul_I, ← Complex.ofReal_cos, ← Complex.ofReal_sin]
    apply Complex.ext
    · show Real.cos x = (((Real.cos x : ℝ) : ℂ) + ((Real.sin x : ℝ) : ℂ) * Complex.I).re
      rw [Complex.add_re, Complex.re_ofReal_mul, Complex.ofReal_re, Complex.I_re]; ring
    · show Real.sin x = (((Real.cos x : ℝ) : ℂ) + ((Real.sin x : ℝ) : ℂ) * Complex.I).im
      rw [Complex.add_im, Complex.im_ofReal_mul, Complex.ofReal_im, Complex.I_im]; ring
  rw [Verif.Lemmas.Superrest.rot_z ell _ hb f m hm, ha, Verif.Lemmas.Superrest.phase ell m hm x]

/-- The z axis is dominant after a rotation that takes it to a dominant vector. -/
theorem dominant_rotated {a b : Int} (ha : 0 ≤ a) {R : Quaternion ℝ} (hR : UnitRotor R) {d d' : Row ℂ} (hd : RowRotated a b R d d') {x : Vec} (hx : Top (LLMatrix d (LMRange a b)) x)
    (hz : rotateVec R zHat = x ∨ rotateVec R zHat = -x) : ZDominant a b (fn a d') := by
  intro v hv
  unfold spread
  rw [← Props.ModeCalc.quad_form a b ha, ← Props.ModeCalc.quad_form a b ha, LLMatrix_rotated ha hR hd, LLMatrix_rotated ha hR hd]
  refine (hx.2 (rotateVec R v) (by rw [Props.GridModes.rotateVec_length R hR, hv])).trans (le_of_eq ?_)
  show _ = ∑ i, ∑ j, rotateVec R zHat i * LLMatrix d (LMRange a b) i j * rotateVec R zHat j
  rcases hz with hz | hz
  · rw [hz]
  · rw [hz]
    refine Finset.sum_congr rfl fun i _ => Finset.sum_congr rfl fun j _ => ?_
    show _ = -x i * _ * -x j
    ring

theorem RowRotated.mono {a b c : Int} (hc : c ≤ b) {R : Quaternion ℝ} {d d' : Row ℂ} (h : RowRotated a b R d d') : RowRotated a c R d d' :=
  fun ell m h1 h2 h3 h4 => h ell m h1 (h2.trans hc) h3 h4

theorem RowRotated.mul {a b : Int} {R S : Quaternion ℝ} {d d' d'' : Row ℂ} (h : RowRotated a b R d d') (h' : RowRotated a b S d' d'') : RowRotated a b (R * S) d d'' := by
  intro ell m h1 h2 h3 h4
  rw [h' ell m h1 h2 h3 h4, ← Verif.Rotation.rot_rot ell R S _ m ⟨h3, h4⟩]
  exact Verif.Rotation.rot_congr ell S _ _ m fun n hn => h ell n h1 h2 hn.1 hn.2

end Verif.Lemmas.Align
