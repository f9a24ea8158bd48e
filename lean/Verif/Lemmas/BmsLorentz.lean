import Verif.Lemmas.Bms

/-!
# The parameters of a Lorentz transformation

What reordering, inversion and composition do to rotor and velocity.
-/

namespace Verif.Lemmas.Bms

open Verif Verif.Bms Verif.AbdTransform Verif.Spec.Bms Verif.Props.AbdTransform Matrix

theorem rotor_ok (q : Quaternion ℝ) (hq : Quaternion.normSq q = 1) (kw : TransformKwargs.Kw) (hkw : kw.frame_rotation = some (components q)) : TransformKwargs.rotor kw = .ok q := by
  unfold TransformKwargs.rotor
  rw [hkw]
  have : TransformKwargs.mkQuaternion ((some (components q)).getD [1, 0, 0, 0]) = .ok q := rfl
  rw [this, ok_bind, hq]
  simp
  norm_num
  rfl

theorem rotor_none (kw : TransformKwargs.Kw) (hkw : kw.frame_rotation = none) : TransformKwargs.rotor kw = .ok 1 := by
  have h : TransformKwargs.rotor kw = TransformKwargs.rotor { kw with frame_rotation := some (components 1) } := by
    unfold TransformKwargs.rotor
    rw [hkw]
    rfl
  rw [h]
  exact rotor_ok 1 (map_one _) _ rfl

theorem velocity_ok (v : Vec) (hv : dot v v < 1) (kw : TransformKwargs.Kw) (hkw : kw.boost_velocity = some (List.ofFn v)) : TransformKwargs.velocity kw = .ok [v 0, v 1, v 2] := by
  unfold TransformKwargs.velocity
  rw [hkw]
  have e : List.ofFn v = [v 0, v 1, v 2] := by simp [List.ofFn_succ]
  simp only [e, Option.getD_some]
  rw [if_neg]
  push Not
  refine ⟨rfl, ?_⟩
  have : ([v 0, v 1, v 2].map (· ^ 2)).sum = dot v v := by
    rw [dot_self]
    simp
    ring
  rw [this, Real.sqrt_lt' one_pos]
  simpa using hv

theorem velocity_none (kw : TransformKwargs.Kw) (hkw : kw.boost_velocity = none) : TransformKwargs.velocity kw = .ok [0, 0, 0] := by
  unfold TransformKwargs.velocity
  rw [hkw]
  simp

theorem getD_vec (v : Vec) : (fun i : Fin 3 => [v 0, v 1, v 2].getD (i : Nat) 0) = v := by
  funext i
  fin_cases i <;> rfl

theorem process_eq (ellMax : Int) (he : 0 ≤ ellMax) (kw : TransformKwargs.Kw) (h1 : kw.supertranslation = none) (h2 : kw.spacetime_translation = none) (h3 : kw.space_translation = none)
    (h4 : kw.time_translation = none) (h5 : kw.working_ell_max = none) (R : Quaternion ℝ) (w : List ℝ) (hR : TransformKwargs.rotor kw = .ok R) (hw : TransformKwargs.velocity kw = .ok w) :
    ∃ r, TransformKwargs.process ellMax kw = .ok r ∧ r.frame_rotation = R ∧ r.boost_velocity = w := by
  have e1 : TransformKwargs.superInput kw = .ok (1, fun _ => 0) := by
    unfold TransformKwargs.superInput
    rw [h1]
  have e2 (row) : ∃ row', TransformKwargs.translations kw row = .ok row' := by
    unfold TransformKwargs.translations TransformKwargs.stepSpacetime TransformKwargs.stepSpace TransformKwargs.stepTime
    rw [h2, h3, h4]
    exact ⟨_, rfl⟩
  obtain ⟨row', e2⟩ := e2 (fun _ => 0)
  have e3 : ∃ w', TransformKwargs.workingEllMax kw ellMax 1 = .ok w' := by
    unfold TransformKwargs.workingEllMax
    rw [h5]
    refine ⟨_, if_neg ?_⟩
    simp
    omega
  obtain ⟨w', e3⟩ := e3
  unfold TransformKwargs.process
  rw [e1, ok_bind]
  simp only
  rw [e2, ok_bind, e3, ok_bind, hR, ok_bind, hw, ok_bind]
  exact ⟨_, rfl, rfl, rfl⟩

theorem lorentzInit_ok (q : Quaternion ℝ) (v : Vec) (o : Order) (ell : Int) (hq : Quaternion.normSq q = 1) (hv : dot v v < 1) (he : 0 ≤ ell) :
    lorentzInit (some q) (some v) o ell = .ok { q := q, v := v, order := complete lorentzNormal (o.erase .supertranslation), ellMax := ell } := by
  obtain ⟨r, h1, h2, h3⟩ := process_eq ell he { frame_rotation := (some q).map components, boost_velocity := (some v).map List.ofFn } rfl rfl rfl rfl rfl q _ (rotor_ok q hq _ rfl) (velocity_ok v hv _ rfl)
  unfold lorentzInit
  rw [h1, ok_bind, h2, h3, getD_vec]
  rfl

theorem lorentzInit_rotation (q : Quaternion ℝ) (o : Order) (ell : Int) (hq : Quaternion.normSq q = 1) (he : 0 ≤ ell) :
    lorentzInit (some q) none o ell = .ok { q := q, v := 0, order := complete lorentzNormal (o.erase .supertranslation), ellMax := ell } := by
  obtain ⟨r, h1, h2, h3⟩ := process_eq ell he { frame_rotation := (some q).map components, boost_velocity := none } rfl rfl rfl rfl rfl q _ (rotor_ok q hq _ rfl) (velocity_none _ rfl)
  unfold lorentzInit
  have e : (fun i : Fin 3 => [(0 : ℝ), 0, 0].getD (i : Nat) 0) = 0 := getD_vec 0
  simp only [Option.map_none]
  rw [h1, ok_bind, h2, h3, e]
  rfl

theorem lorentzInit_boost (v : Vec) (o : Order) (ell : Int) (hv : dot v v < 1) (he : 0 ≤ ell) :
    lorentzInit none (some v) o ell = .ok { q := 1, v := v, order := complete lorentzNormal (o.erase .supertranslation), ellMax := ell } := by
  obtain ⟨r, h1, h2, h3⟩ := process_eq ell he { frame_rotation := none, boost_velocity := (some v).map List.ofFn } rfl rfl rfl rfl rfl 1 _ (rotor_none _ rfl) (velocity_ok v hv _ rfl)
  unfold lorentzInit
  simp only [Option.map_none]
  rw [h1, ok_bind, h2, h3, getD_vec]
  rfl

/-! ## Rotations of velocities -/

theorem rotateVec_dot (q : Quaternion ℝ) (hq : Quaternion.normSq q = 1) (v w : Vec) : dot (rotateVec q v) (rotateVec q w) = dot v w := by
  rw [normSq_components] at hq
  rw [dot_eq, dot_eq, rotateVec_0, rotateVec_1, rotateVec_2, rotateVec_0, rotateVec_1, rotateVec_2]
  have h2 : (q.re ^ 2 + q.imI ^ 2 + q.imJ ^ 2 + q.imK ^ 2) ^ 2 = 1 := by rw [hq, one_pow]
  linear_combination (v 0 * w 0 + v 1 * w 1 + v 2 * w 2) * h2

theorem rotateVec_smul (q : Quaternion ℝ) (k : ℝ) (v : Vec) : rotateVec q (k • v) = k • rotateVec q v := by
  funext i
  fin_cases i
  · show rotateVec q (k • v) 0 = k * rotateVec q v 0
    rw [rotateVec_0, rotateVec_0]
    simp
    ring
  · show rotateVec q (k • v) 1 = k * rotateVec q v 1
    rw [rotateVec_1, rotateVec_1]
    simp
    ring
  · show rotateVec q (k • v) 2 = k * rotateVec q v 2
    rw [rotateVec_2, rotateVec_2]
    simp
    ring

theorem rotateVec_neg (q : Quaternion ℝ) (v : Vec) : rotateVec q (-v) = -rotateVec q v := by
  have := rotateVec_smul q (-1) v
  simpa using this

theorem rotateVec_add (q : Quaternion ℝ) (v w : Vec) : rotateVec q (v + w) = rotateVec q v + rotateVec q w := by
  funext i
  fin_cases i
  · show rotateVec q (v + w) 0 = rotateVec q v 0 + rotateVec q w 0
    simp only [rotateVec_0, Pi.add_apply]
    ring
  · show rotateVec q (v + w) 1 = rotateVec q v 1 + rotateVec q w 1
    simp only [rotateVec_1, Pi.add_apply]
    ring
  · show rotateVec q (v + w) 2 = rotateVec q v 2 + rotateVec q w 2
    simp only [rotateVec_2, Pi.add_apply]
    ring

theorem rotateVec_negQ (q : Quaternion ℝ) (v : Vec) : rotateVec (-q) v = rotateVec q v := by
  funext i
  fin_cases i
  · show rotateVec (-q) v 0 = rotateVec q v 0
    simp [rotateVec_0]
  · show rotateVec (-q) v 1 = rotateVec q v 1
    simp [rotateVec_1]
  · show rotateVec (-q) v 2 = rotateVec q v 2
    simp [rotateVec_2]

theorem rotate_star_rotate (q : Quaternion ℝ) (hq : Quaternion.normSq q = 1) (v : Vec) : rotateVec (star q) (rotateVec q v) = v := by
  rw [← rotateVec_mul, star_mul_self q hq, rotateVec_one]

theorem rotate_rotate_star (q : Quaternion ℝ) (hq : Quaternion.normSq q = 1) (v : Vec) : rotateVec q (rotateVec (star q) v) = v := by
  rw [← rotateVec_mul, self_mul_star q hq, rotateVec_one]

theorem normSq_star (q : Quaternion ℝ) : Quaternion.normSq (star q) = Quaternion.normSq q := by
  rw [normSq_components, normSq_components]
  simp

theorem gam_rotate (q : Quaternion ℝ) (hq : Quaternion.normSq q = 1) (v : Vec) : gam (rotateVec q v) = gam v := by
  unfold gam
  rw [rotateVec_dot q hq]

theorem Bm_eq_Hm (v : Vec) : Bm v = Hm ((√(2 * (gam v + 1)))⁻¹ * (gam v + 1), (-((√(2 * (gam v + 1)))⁻¹ * gam v)) • v) := by
  unfold Bm
  generalize (√(2 * (gam v + 1)))⁻¹ = c
  generalize gam v = g
  apply mat_ext <;> (apply Complex.ext <;> simp [Bg, Hm])
  all_goals ring

/-- Rotating a boost. -/
theorem Bm_rotate (q : Quaternion ℝ) (hq : Quaternion.normSq q = 1) (v : Vec) : Mq q * Bm v * Mq (star q) = Bm (rotateVec q v) := by
  rw [Bm_eq_Hm v, ← Hm_rot q hq, Bm_eq_Hm (rotateVec q v), gam_rotate q hq]
  unfold rot
  rw [rotateVec_smul]

theorem Mq_mul_star (q : Quaternion ℝ) (hq : Quaternion.normSq q = 1) : Mq q * Mq (star q) = 1 := by
  rw [← Mq_mul, self_mul_star q hq, Mq_one]

theorem Mq_star_mul (q : Quaternion ℝ) (hq : Quaternion.normSq q = 1) : Mq (star q) * Mq q = 1 := by
  rw [← Mq_mul, star_mul_self q hq, Mq_one]

theorem Mq_Bm (q : Quaternion ℝ) (hq : Quaternion.normSq q = 1) (v : Vec) : Mq q * Bm v = Bm (rotateVec q v) * Mq q := by
  rw [← Bm_rotate q hq, Matrix.mul_assoc (Mq q * Bm v), Mq_star_mul q hq, Matrix.mul_one]

theorem Bm_Mq (q : Quaternion ℝ) (hq : Quaternion.normSq q = 1) (v : Vec) : Bm v * Mq q = Mq q * Bm (rotateVec (star q) v) := by
  rw [Mq_Bm q hq, rotate_rotate_star q hq]

theorem Mq_det (q : Quaternion ℝ) (hq : Quaternion.normSq q = 1) : (Mq q).det = 1 := by
  rw [normSq_components] at hq
  rw [Matrix.det_fin_two]
  apply Complex.ext <;> simp [Mq]
  · linarith
  · ring

theorem boost_rest (v : Vec) : boost v (1, 0) = (gam v, gam v • v) := by
  unfold boost
  simp [dot]

theorem Bm_sq_inj {v w : Vec} (hv : dot v v < 1) (hw : dot w w < 1) (h : Bm v * Bm v = Bm w * Bm w) : v = w := by
  have e (v : Vec) (hv : dot v v < 1) : Bm v * Bm v = Hm (gam v, gam v • (-v)) := by
    have h1 := Hm_boost (-v) (by rwa [dot_neg_self]) (1, 0)
    have h2 : Hm (1, 0) = 1 := by apply mat_ext <;> (apply Complex.ext <;> simp [Hm])
    rw [neg_neg, h2, Matrix.mul_one, boost_rest, gam_neg] at h1
    exact h1.symm
  rw [e v hv, e w hw] at h
  have h := Hm_inj h
  rw [Prod.mk.injEq] at h
  obtain ⟨h1, h2⟩ := h
  rw [h1] at h2
  have hp := gam_pos w hw
  funext i
  have := congrFun h2 i
  simp at this
  exact this.resolve_right hp.ne'

/-- The polar decomposition is unique. -/
theorem polar_left {v w : Vec} {p q : Quaternion ℝ} (hv : dot v v < 1) (hw : dot w w < 1) (hp : Quaternion.normSq p = 1) (hq : Quaternion.normSq q = 1) (h : Bm v * Mq p = Bm w * Mq q) : v = w ∧ p = q := by
  have h2 : (Bm v * Mq p) * (Bm v * Mq p)ᴴ = (Bm w * Mq q) * (Bm w * Mq q)ᴴ := by rw [h]
  rw [Matrix.conjTranspose_mul, Matrix.conjTranspose_mul, Bm_herm, Bm_herm, ← Mq_star, ← Mq_star, Matrix.mul_assoc, ← Matrix.mul_assoc (Mq p), Mq_mul_star p hp, Matrix.one_mul,
    Matrix.mul_assoc (Bm w), ← Matrix.mul_assoc (Mq q), Mq_mul_star q hq, Matrix.one_mul] at h2
  have hvw := Bm_sq_inj hv hw h2
  refine ⟨hvw, Mq_inj ?_⟩
  rw [← hvw] at h
  have h3 : Bm (-v) * (Bm v * Mq p) = Bm (-v) * (Bm v * Mq q) := by rw [h]
  rwa [← Matrix.mul_assoc, ← Matrix.mul_assoc, Bm_neg_mul v hv, Matrix.one_mul, Matrix.one_mul] at h3

theorem polar_right {v w : Vec} {p q : Quaternion ℝ} (hv : dot v v < 1) (hw : dot w w < 1) (hp : Quaternion.normSq p = 1) (hq : Quaternion.normSq q = 1) (h : Mq p * Bm v = Mq q * Bm w) : v = w ∧ p = q := by
  rw [Mq_Bm p hp, Mq_Bm q hq] at h
  obtain ⟨h1, h2⟩ := polar_left (by rwa [rotateVec_dot p hp]) (by rwa [rotateVec_dot q hq]) hp hq h
  refine ⟨?_, h2⟩
  rw [← h2] at h1
  rw [← rotate_star_rotate p hp v, h1, rotate_star_rotate p hp]

/-! ## From a matrix to an object -/

/-- The rotor that is found for a rotation: -1 is replaced by 1. -/
noncomputable def fixSign (q : Quaternion ℝ) : Quaternion ℝ := open Classical in if q = -1 then 1 else q

theorem fixSign_unit (q : Quaternion ℝ) (hq : Quaternion.normSq q = 1) : Rotor (fixSign q) := by
  unfold fixSign
  split_ifs with h
  · refine ⟨map_one _, ?_⟩
    intro h1
    have := congrArg (fun q : Quaternion ℝ => q.re) h1
    have e : (1 : Quaternion ℝ).re = 1 := rfl
    have e' : (-1 : Quaternion ℝ).re = -1 := rfl
    simp only [e, e'] at this
    norm_num at this
  · exact ⟨hq, h⟩

theorem fixSign_of_unit (q : Quaternion ℝ) (hq : Rotor q) : fixSign q = q := if_neg hq.2

theorem pureRotation_fix (q : Quaternion ℝ) (hq : Quaternion.normSq q = 1) : pureRotation (Mq q) = fixSign q := by
  unfold fixSign
  split_ifs with h
  · rw [h, Mq_neg, Mq_one, pureRotation_minus_one]
  · exact pureRotation_Mq q ⟨hq, h⟩

theorem unitary_comm {U : Mat} (h : U * Uᴴ = 1) : Uᴴ * U = 1 := mul_eq_one_comm.mp h

/-- What the singular value decomposition gives for a product of a boost and a rotation. -/
theorem svd_parts (ext : Ext) (he : SvdOk ext) (A : Mat) (hA : A.det = 1) :
    ∃ p, Quaternion.normSq p = 1 ∧ (ext.svd A).1 * (ext.svd A).2.2 = Mq p ∧
    (∃ w, dot w w < 1 ∧ (ext.svd A).1 * Matrix.diagonal (fun i => ((ext.svd A).2.1 i : ℂ)) * (ext.svd A).1ᴴ = Bm w ∧ A = Bm w * Mq p) ∧
    (∃ w, dot w w < 1 ∧ (ext.svd A).2.2ᴴ * Matrix.diagonal (fun i => ((ext.svd A).2.1 i : ℂ)) * (ext.svd A).2.2 = Bm w ∧ A = Mq p * Bm w) := by
  obtain ⟨hu, hw, hs, hd⟩ := he A hA
  generalize (ext.svd A).1 = u at *
  generalize (ext.svd A).2.2 = w at *
  generalize (ext.svd A).2.1 = s at *
  have hu' := unitary_comm hu
  have hw' := unitary_comm hw
  have hdet : u.det * ((s 0 * s 1 : ℝ) : ℂ) * w.det = 1 := by
    have := congrArg Matrix.det hd
    rw [hA, Matrix.det_mul, Matrix.det_mul, Matrix.det_diagonal, Fin.prod_univ_two] at this
    rw [this]
    push_cast
    rfl
  have hdu : ‖u.det‖ = 1 := by
    have := congrArg Matrix.det hu
    rw [Matrix.det_mul, Matrix.det_conjTranspose, Matrix.det_one] at this
    have h2 := congrArg norm this
    rw [norm_mul, norm_star, norm_one] at h2
    nlinarith [norm_nonneg u.det]
  have hdw : ‖w.det‖ = 1 := by
    have := congrArg Matrix.det hw
    rw [Matrix.det_mul, Matrix.det_conjTranspose, Matrix.det_one] at this
    have h2 := congrArg norm this
    rw [norm_mul, norm_star, norm_one] at h2
    nlinarith [norm_nonneg w.det]
  have hs1 : s 0 * s 1 = 1 := by
    have h2 := congrArg norm hdet
    rw [norm_mul, norm_mul, hdu, hdw, norm_one, one_mul, mul_one, Complex.norm_real, Real.norm_of_nonneg (mul_nonneg (hs 0) (hs 1))] at h2
    exact h2
  rw [hs1] at hdet
  have hUdet : (u * w).det = 1 := by
    rw [Matrix.det_mul]
    simpa using hdet
  have hU : (u * w) * (u * w)ᴴ = 1 := by
    rw [Matrix.conjTranspose_mul, Matrix.mul_assoc, ← Matrix.mul_assoc w, hw, Matrix.one_mul, hu]
  obtain ⟨p, hp, hpU⟩ := unitary_form (u * w) hU hUdet
  have hpos : 0 < s 0 + s 1 := by
    rcases (hs 0).lt_or_eq with h | h
    · linarith [hs 1]
    · rw [← h, zero_mul] at hs1
      norm_num at hs1
  have hDd : (Matrix.diagonal fun i => (s i : ℂ) : Mat).det = 1 := by
    rw [Matrix.det_diagonal, Fin.prod_univ_two, ← Complex.ofReal_mul, hs1, Complex.ofReal_one]
  have hDh : (Matrix.diagonal fun i => (s i : ℂ) : Mat)ᴴ = Matrix.diagonal fun i => (s i : ℂ) := by
    rw [Matrix.diagonal_conjTranspose]
    congr 1
    funext i
    simp
  have hDt : (Matrix.diagonal fun i => (s i : ℂ) : Mat).trace = ((s 0 + s 1 : ℝ) : ℂ) := by
    simp [Matrix.trace, Fin.sum_univ_two]
  generalize (Matrix.diagonal fun i => (s i : ℂ) : Mat) = D at *
  have tr2 (P : Mat) : P 0 0 + P 1 1 = P.trace := by simp [Matrix.trace, Fin.sum_univ_two]
  refine ⟨p, hp, hpU, ?_, ?_⟩
  · obtain ⟨x, hx, hxB⟩ := hermitian_form (u * D * uᴴ) (by
        rw [Matrix.conjTranspose_mul, Matrix.conjTranspose_mul, Matrix.conjTranspose_conjTranspose, hDh, Matrix.mul_assoc]) (by
        rw [Matrix.det_mul, Matrix.det_mul, hDd, mul_one, ← Matrix.det_mul, hu, Matrix.det_one]) (by
        rw [tr2, Matrix.trace_mul_comm, ← Matrix.mul_assoc, hu', Matrix.one_mul, hDt, Complex.ofReal_re]
        exact hpos)
    refine ⟨x, hx, hxB, ?_⟩
    rw [← hxB, ← hpU, hd]
    rw [Matrix.mul_assoc (u * D), ← Matrix.mul_assoc uᴴ, hu', Matrix.one_mul]
  · obtain ⟨x, hx, hxB⟩ := hermitian_form (wᴴ * D * w) (by
        rw [Matrix.conjTranspose_mul, Matrix.conjTranspose_mul, Matrix.conjTranspose_conjTranspose, hDh, Matrix.mul_assoc]) (by
        rw [Matrix.det_mul, Matrix.det_mul, hDd, mul_one, ← Matrix.det_mul, hw', Matrix.det_one]) (by
        rw [tr2, Matrix.trace_mul_comm, ← Matrix.mul_assoc, hw, Matrix.one_mul, hDt, Complex.ofReal_re]
        exact hpos)
    refine ⟨x, hx, hxB, ?_⟩
    rw [← hxB, ← hpU, hd, Matrix.mul_assoc wᴴ, Matrix.mul_assoc u w, ← Matrix.mul_assoc w, hw, Matrix.one_mul, Matrix.mul_assoc]

theorem not_small (A : Mat) (hA : A.det = 1) : ¬ ∀ i j, ‖A i j‖ ≤ 1e-8 := by
  intro h
  rw [Matrix.det_fin_two] at hA
  have h1 := congrArg norm hA
  have h2 := norm_sub_le (A 0 0 * A 1 1) (A 0 1 * A 1 0)
  rw [h1, norm_mul, norm_mul, norm_one] at h2
  have := h 0 0
  have := h 0 1
  have := h 1 0
  have := h 1 1
  have a : ‖A 0 0‖ * ‖A 1 1‖ ≤ 1e-8 * 1e-8 := mul_le_mul (h 0 0) (h 1 1) (norm_nonneg _) (by norm_num)
  have b : ‖A 0 1‖ * ‖A 1 0‖ ≤ 1e-8 * 1e-8 := mul_le_mul (h 0 1) (h 1 0) (norm_nonneg _) (by norm_num)
  norm_num at a b
  linarith

/-- The object `spin_matrix_to_Lorentz` makes of given parameters. -/
noncomputable def made (q : Quaternion ℝ) (v : Vec) (o : Order) (ell : Int := 12) : Lorentz :=
  { q := q, v := v, order := complete lorentzNormal (o.erase .supertranslation), ellMax := ell }

open Classical in
theorem spinToLorentz_eq (ext : Ext) (A : Mat) (hA : A.det = 1) (o : Order) :
    spinToLorentz ext A o = lorentzInit (some (pureRotation ((ext.svd A).1 * (ext.svd A).2.2)))
      (some (pureBoost (if RotFirst o then (ext.svd A).1 * Matrix.diagonal (fun i => ((ext.svd A).2.1 i : ℂ)) * (ext.svd A).1ᴴ
        else (ext.svd A).2.2ᴴ * Matrix.diagonal (fun i => ((ext.svd A).2.1 i : ℂ)) * (ext.svd A).2.2))) o := by
  refine (if_neg (not_small _ hA)).trans ?_
  unfold RotFirst
  split_ifs <;> rfl

theorem spinToLorentz_left (ext : Ext) (he : SvdOk ext) (q : Quaternion ℝ) (v : Vec) (hq : Quaternion.normSq q = 1) (hv : dot v v < 1) (o : Order) (ho : RotFirst o) :
    spinToLorentz ext (Bm v * Mq q) o = .ok (made (fixSign q) v o) := by
  have hA : (Bm v * Mq q).det = 1 := by rw [Matrix.det_mul, Bm_det v hv, Mq_det q hq, one_mul]
  obtain ⟨p, hp, h1, ⟨w, hw, h2, h3⟩, _⟩ := svd_parts ext he _ hA
  obtain ⟨e1, e2⟩ := polar_left hv hw hq hp h3
  rw [spinToLorentz_eq ext _ hA, if_pos ho, h1, h2, ← e1, ← e2, pureRotation_fix q hq, pureBoost_Bm v hv]
  exact lorentzInit_ok _ _ _ _ (fixSign_unit q hq).1 hv (by norm_num)

theorem spinToLorentz_right (ext : Ext) (he : SvdOk ext) (q : Quaternion ℝ) (v : Vec) (hq : Quaternion.normSq q = 1) (hv : dot v v < 1) (o : Order) (ho : ¬ RotFirst o) :
    spinToLorentz ext (Mq q * Bm v) o = .ok (made (fixSign q) v o) := by
  have hA : (Mq q * Bm v).det = 1 := by rw [Matrix.det_mul, Bm_det v hv, Mq_det q hq, one_mul]
  obtain ⟨p, hp, h1, _, ⟨w, hw, h2, h3⟩⟩ := svd_parts ext he _ hA
  obtain ⟨e1, e2⟩ := polar_right hv hw hq hp h3
  rw [spinToLorentz_eq ext _ hA, if_neg ho, h1, h2, ← e1, ← e2, pureRotation_fix q hq, pureBoost_Bm v hv]
  exact lorentzInit_ok _ _ _ _ (fixSign_unit q hq).1 hv (by norm_num)

end Verif.Lemmas.Bms
