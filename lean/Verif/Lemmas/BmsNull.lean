import Verif.Lemmas.BmsLorentz

/-!
# Null directions

The grid on which `transform_supertranslation` evaluates, in terms of the Lorentz transformation of null vectors.
-/

namespace Verif.Lemmas.Bms

open Verif Verif.Bms Verif.AbdTransform Verif.Spec.Bms Verif.Props.AbdTransform

/-- Null vectors that point to the future. -/
def Future (X : Four) : Prop := 0 < X.1 ∧ dot X.2 X.2 = X.1 ^ 2

theorem future_null {r : Vec} (hr : Sphere r) : Future (null r) := ⟨one_pos, by
  show dot r r = 1 ^ 2
  rw [one_pow]
  exact hr⟩

theorem dot_smul (k : ℝ) (v w : Vec) : dot v (k • w) = k * dot v w := by
  simp [dot_eq]
  ring

theorem dot_comm (v w : Vec) : dot v w = dot w v := by
  simp only [dot_eq]
  ring

theorem dot_add (v w x : Vec) : dot v (w + x) = dot v w + dot v x := by
  simp [dot_eq]
  ring

theorem cauchy (v w : Vec) : dot v w ^ 2 ≤ dot v v * dot w w := by
  simp only [dot_eq]
  nlinarith [sq_nonneg (v 0 * w 1 - v 1 * w 0), sq_nonneg (v 0 * w 2 - v 2 * w 0), sq_nonneg (v 1 * w 2 - v 2 * w 1)]

theorem rot_future (q : Quaternion ℝ) (hq : Quaternion.normSq q = 1) {X : Four} (h : Future X) : Future (rot q X) := by
  refine ⟨h.1, ?_⟩
  show dot (rotateVec q X.2) (rotateVec q X.2) = X.1 ^ 2
  rw [rotateVec_dot q hq]
  exact h.2

theorem vdot_abs (v : Vec) (hv : dot v v < 1) {X : Four} (h : Future X) : |dot v X.2| < X.1 := by
  apply abs_lt_of_sq_lt_sq _ h.1.le
  have := cauchy v X.2
  rw [h.2] at this
  nlinarith [sq_nonneg X.1, h.1, pow_pos h.1 2]

theorem boost_future (v : Vec) (hv : dot v v < 1) {X : Four} (h : Future X) : Future (boost v X) := by
  have habs := abs_lt.mp (vdot_abs v hv h)
  have hp := gam_pos v hv
  refine ⟨mul_pos hp (by linarith), ?_⟩
  have hg := gam_sq v hv
  have h2 := h.2
  unfold boost
  simp only
  have e : ∀ k : ℝ, dot (X.2 + k • v) (X.2 + k • v) = dot X.2 X.2 + 2 * k * dot v X.2 + k ^ 2 * dot v v := by
    intro k
    simp [dot_eq]
    ring
  rw [e, h2]
  generalize dot v X.2 = y at *
  generalize dot v v = w at *
  generalize gam v = g at *
  obtain ⟨k, hk⟩ : ∃ k, k = g ^ 2 / (g + 1) := ⟨_, rfl⟩
  have hk' : k * (g + 1) = g ^ 2 := by
    rw [hk]
    field_simp
  rw [← hk]
  have hw : g ^ 2 * w = g ^ 2 - 1 := by linarith
  have hk2 : k ^ 2 * (g + 1) ^ 2 = g ^ 4 := by
    rw [← mul_pow, hk']
    ring
  have hkw : k * w = g - 1 := by
    have : k * (g + 1) * w = (g - 1) * (g + 1) := by rw [hk', hw]; ring
    exact mul_right_cancel₀ (b := g + 1) (by linarith) (by linarith)
  linear_combination (k * y ^ 2 + 2 * g * y * X.1) * hkw + X.1 ^ 2 * hw + y ^ 2 * hk'

theorem act_future (q : Quaternion ℝ) (hq : Quaternion.normSq q = 1) (v : Vec) (hv : dot v v < 1) {X : Four} (h : Future X) : Future (act q v X) :=
  boost_future v hv (rot_future q hq h)

theorem dir_sphere {X : Four} (h : Future X) : Sphere (dir X) := by
  unfold Sphere dir
  have h1 := h.1
  rw [dot_smul, dot_comm, dot_smul, h.2]
  field_simp

theorem null_dir {X : Four} (h : Future X) : null (dir X) = (X.1)⁻¹ • X := by
  have h1 := h.1
  refine Prod.ext ?_ rfl
  show (1 : ℝ) = X.1⁻¹ * X.1
  field_simp

theorem rot_smul (q : Quaternion ℝ) (k : ℝ) (X : Four) : rot q (k • X) = k • rot q X := by
  refine Prod.ext rfl ?_
  show rotateVec q (k • X.2) = k • rotateVec q X.2
  exact rotateVec_smul q k X.2

theorem boost_smul (v : Vec) (k : ℝ) (X : Four) : boost v (k • X) = k • boost v X := by
  refine Prod.ext ?_ ?_
  · show gam v * (k * X.1 + dot v (k • X.2)) = k * (gam v * (X.1 + dot v X.2))
    rw [dot_smul]
    ring
  · show k • X.2 + (gam v ^ 2 / (gam v + 1) * dot v (k • X.2) + gam v * (k * X.1)) • v = k • (X.2 + (gam v ^ 2 / (gam v + 1) * dot v X.2 + gam v * X.1) • v)
    rw [dot_smul]
    module

/-- Rotation and boost in the other order. -/
theorem rot_boost (q : Quaternion ℝ) (hq : Quaternion.normSq q = 1) (v : Vec) (X : Four) : rot q (boost v X) = boost (rotateVec q v) (rot q X) := by
  unfold rot boost
  simp only
  rw [gam_rotate q hq, rotateVec_dot q hq, rotateVec_add, rotateVec_smul]

theorem rot_mul (p q : Quaternion ℝ) (X : Four) : rot (p * q) X = rot p (rot q X) := by
  unfold rot
  simp only
  rw [rotateVec_mul]

theorem rot_one (X : Four) : rot 1 X = X := by
  unfold rot
  rw [rotateVec_one]

theorem rot_neg (q : Quaternion ℝ) (X : Four) : rot (-q) X = rot q X := by
  unfold rot
  rw [rotateVec_negQ]

theorem boost_zero (X : Four) : boost 0 X = X := by
  unfold boost
  have h1 : gam 0 = 1 := by simp [gam, dot]
  have h2 : dot 0 X.2 = 0 := by simp [dot]
  rw [h1, h2]
  simp

theorem boost_neg_boost (v : Vec) (hv : dot v v < 1) (X : Four) : boost (-v) (boost v X) = X := by
  apply Hm_inj
  rw [Hm_boost (-v) (by rwa [dot_neg_self]), Hm_boost v hv, neg_neg]
  rw [Matrix.mul_assoc, Matrix.mul_assoc, Bm_neg_mul v hv, Matrix.mul_one, ← Matrix.mul_assoc, Bm_mul_neg v hv, Matrix.one_mul]

theorem boost_boost_neg (v : Vec) (hv : dot v v < 1) (X : Four) : boost v (boost (-v) X) = X := by
  have := boost_neg_boost (-v) (by rwa [dot_neg_self]) X
  rwa [neg_neg] at this

theorem rot_star_rot (q : Quaternion ℝ) (hq : Quaternion.normSq q = 1) (X : Four) : rot (star q) (rot q X) = X := by
  rw [← rot_mul, star_mul_self q hq, rot_one]

theorem rot_rot_star (q : Quaternion ℝ) (hq : Quaternion.normSq q = 1) (X : Four) : rot q (rot (star q) X) = X := by
  rw [← rot_mul, self_mul_star q hq, rot_one]

/-! ## Aberration -/

theorem sin_thetaOf (beta thetaprm : ℝ) (hb : 0 ≤ beta) (hb1 : beta < 1) (h0 : 0 ≤ thetaprm) (h1 : thetaprm < Real.pi) :
    Real.sin (thetaOf beta thetaprm) = √(1 - beta ^ 2) * Real.sin thetaprm / (1 + beta * Real.cos thetaprm) := by
  have hc := cos_thetaOf beta thetaprm hb hb1 h0 h1
  have hs := Real.sin_nonneg_of_nonneg_of_le_pi h0 h1.le
  have hcl := Real.neg_one_le_cos thetaprm
  have hcu := Real.cos_le_one thetaprm
  have hden : 0 < 1 + beta * Real.cos thetaprm := by nlinarith
  have ht0 : 0 ≤ thetaOf beta thetaprm := by
    unfold thetaOf
    have : 0 ≤ Real.tan (thetaprm / 2) := Real.tan_nonneg_of_nonneg_of_le_pi_div_two (by linarith) (by linarith)
    have h2 : 0 ≤ Real.arctan (Real.exp (-Real.artanh beta) * Real.tan (thetaprm / 2)) := Real.arctan_nonneg.mpr (by positivity)
    linarith
  have ht1 : thetaOf beta thetaprm ≤ Real.pi := by
    unfold thetaOf
    linarith [Real.arctan_lt_pi_div_two (Real.exp (-Real.artanh beta) * Real.tan (thetaprm / 2))]
  have hsn := Real.sin_nonneg_of_nonneg_of_le_pi ht0 ht1
  have hsq := Real.sin_sq_add_cos_sq (thetaOf beta thetaprm)
  have hsq' := Real.sin_sq_add_cos_sq thetaprm
  have hroot : √(1 - beta ^ 2) ^ 2 = 1 - beta ^ 2 := Real.sq_sqrt (by nlinarith)
  have hrn : 0 ≤ √(1 - beta ^ 2) := Real.sqrt_nonneg _
  have hR : 0 ≤ √(1 - beta ^ 2) * Real.sin thetaprm / (1 + beta * Real.cos thetaprm) := by positivity
  rw [hc] at hsq
  refine (sq_eq_sq₀ hsn hR).mp ?_
  have : Real.sin (thetaOf beta thetaprm) ^ 2 = 1 - ((Real.cos thetaprm + beta) / (1 + beta * Real.cos thetaprm)) ^ 2 := by linarith
  rw [this, div_pow, div_pow, mul_pow, hroot]
  have hne := hden.ne'
  rw [eq_div_iff (pow_ne_zero 2 hne), sub_mul, div_mul_cancel₀ _ (pow_ne_zero 2 hne)]
  linear_combination (-(1 - beta ^ 2)) * hsq'

/-- The direction found by `Bprm` is the boosted direction. -/
theorem aberrated (v r : Vec) (hv : dot v v < 1) (hr : Sphere r) : rotateVec (Bprm (vabs v) (fun i => v i / vabs v) r) r = dir (boost v (null r)) := by
  have h1 := vabs_lt_one v hv
  have h0 := vabs_nonneg v
  have hfut := boost_future v hv (future_null hr)
  rcases h0.lt_or_eq with hpos | hz
  · obtain ⟨b, hb⟩ : ∃ b, b = vabs v := ⟨_, rfl⟩
    rw [← hb] at hpos h1 ⊢
    obtain ⟨n, hn⟩ : ∃ n : Vec, n = fun i => v i / b := ⟨_, rfl⟩
    have hvn : v = b • n := by
      funext i
      rw [hn]
      simp
      field_simp
    have hbb : dot v v = b ^ 2 := by rw [hb, vabs_sq]
    have hnn : dot n n = 1 := by
      rw [hvn, dot_smul, dot_comm, dot_smul] at hbb
      have : b ^ 2 * dot n n = b ^ 2 * 1 := by linarith
      exact mul_left_cancel₀ (by positivity) this
    rw [← hn]
    have hgam : gam v = 1 / √(1 - b ^ 2) := by rw [gam, hbb]
    have hroot : √(1 - b ^ 2) ^ 2 = 1 - b ^ 2 := Real.sq_sqrt (by nlinarith)
    have hrp : 0 < √(1 - b ^ 2) := Real.sqrt_pos.mpr (by nlinarith)
    obtain ⟨w, hw⟩ : ∃ w, w = √(1 - b ^ 2) := ⟨_, rfl⟩
    obtain ⟨C, hC⟩ : ∃ C, C = dot n r := ⟨_, rfl⟩
    have hC1 : C ^ 2 ≤ 1 := by
      have := cauchy n r
      rw [hnn, hr, ← hC] at this
      linarith
    have hCl : -1 ≤ C := by nlinarith
    have hCu : C ≤ 1 := by nlinarith
    have hden : 0 < 1 + b * C := by nlinarith
    rw [← hw] at hgam hroot hrp
    -- the boosted direction
    have hboost : dir (boost v (null r)) = (w / (1 + b * C)) • r + ((C + b - w * C) / (1 + b * C)) • n := by
      unfold dir boost null
      simp only
      rw [hgam]
      have hdv : dot v r = b * C := by rw [hvn, dot_comm, dot_smul, dot_comm, hC]
      rw [hdv]
      conv_lhs => rw [hvn]
      have hw1 : w ^ 2 = (1 - b) * (1 + b) := by rw [hroot]; ring
      rw [smul_add, smul_smul, smul_smul]
      congr 1
      · congr 1
        field_simp
      · congr 1
        have hden2 : (1 : ℝ) / w + 1 ≠ 0 := by positivity
        field_simp
        linear_combination C * hroot
    rw [hboost]
    have hlag : vabs (cross r n) ^ 2 = 1 - C ^ 2 := by
      rw [vabs, Real.sq_sqrt (by positivity)]
      have hr' : dot r r = 1 := hr
      rw [dot_self] at hr' hnn
      rw [hC, dot_eq]
      simp [cross]
      linear_combination (r 0 ^ 2 + r 1 ^ 2 + r 2 ^ 2) * hnn + hr'
    have hs0 : 0 ≤ vabs (cross r n) := Real.sqrt_nonneg _
    have hsum : ∑ i, n i * r i = C := hC.symm
    by_cases hs : vabs (cross r n) > 0
    · have hB : Bprm b n r = expRotor (fun i => cross r n i / vabs (cross r n)) ((Real.arccos C - thetaOf b (Real.arccos C)) / 2) := by
        rw [Bprm, if_pos hpos, hsum]
        exact if_pos hs
      rw [hB]
      obtain ⟨s, hsdef⟩ : ∃ s, s = vabs (cross r n) := ⟨_, rfl⟩
      rw [← hsdef] at hs hlag ⊢
      obtain ⟨m, hm⟩ : ∃ m : Vec, m = fun i => cross r n i / s := ⟨_, rfl⟩
      rw [← hm]
      have hlag' : (r 1 * n 2 - r 2 * n 1) ^ 2 + (r 2 * n 0 - r 0 * n 2) ^ 2 + (r 0 * n 1 - r 1 * n 0) ^ 2 = s ^ 2 := by
        rw [hsdef, vabs, Real.sq_sqrt (by positivity)]
        simp [cross]
      have m0 : m 0 = (r 1 * n 2 - r 2 * n 1) / s := by simp [hm, cross]
      have m1 : m 1 = (r 2 * n 0 - r 0 * n 2) / s := by simp [hm, cross]
      have m2 : m 2 = (r 0 * n 1 - r 1 * n 0) / s := by simp [hm, cross]
      have hm1 : ∑ i, m i ^ 2 = 1 := by
        rw [Fin.sum_univ_three, m0, m1, m2, div_pow, div_pow, div_pow, ← add_div, ← add_div, hlag', div_self (pow_pos hs 2).ne']
      have hmr : ∑ i, m i * r i = 0 := by
        rw [Fin.sum_univ_three, m0, m1, m2]
        ring
      funext i
      rw [rotateVec_expRotor m r hm1 hmr]
      have hcross : cross m r i = (n i - C * r i) / s := by
        have hr' : dot r r = 1 := hr
        rw [dot_self] at hr'
        rw [eq_div_iff hs.ne', hC, dot_eq]
        fin_cases i
        · simp [cross, m1, m2]
          field_simp
          linear_combination (n 0) * hr'
        · simp [cross, m0, m2]
          field_simp
          linear_combination (n 1) * hr'
        · simp [cross, m0, m1]
          field_simp
          linear_combination (n 2) * hr'
      rw [hcross]
      have hcos : Real.cos (Real.arccos C) = C := Real.cos_arccos hCl hCu
      have hsin : Real.sin (Real.arccos C) = s := by rw [Real.sin_arccos, ← hlag, Real.sqrt_sq hs.le]
      have hpi : Real.arccos C < Real.pi := by
        rcases (Real.arccos_le_pi C).lt_or_eq with h | h
        · exact h
        · rw [h, Real.sin_pi] at hsin
          exact absurd hsin hs.ne
      have hct := cos_thetaOf b _ hpos.le h1 (Real.arccos_nonneg C) hpi
      have hst := sin_thetaOf b _ hpos.le h1 (Real.arccos_nonneg C) hpi
      rw [hcos] at hct hst
      rw [hsin, ← hw] at hst
      rw [Real.cos_sub, Real.sin_sub, hcos, hsin, hct, hst]
      have hs2 : s ^ 2 = 1 - C ^ 2 := hlag
      simp only [Pi.add_apply, Pi.smul_apply, smul_eq_mul]
      obtain ⟨D, hD⟩ : ∃ D, D = 1 + b * C := ⟨_, rfl⟩
      rw [← hD] at hden ⊢
      field_simp
      linear_combination (w * r i) * hs2
    · have hsz : vabs (cross r n) = 0 := le_antisymm (not_lt.mp hs) hs0
      have hB : Bprm b n r = 1 := by
        rw [Bprm, if_pos hpos]
        exact if_neg hs
      rw [hB, rotateVec_one]
      rw [hsz] at hlag
      have hC2 : C ^ 2 = 1 := by linarith
      have hcr := vabs_eq_zero hsz
      have c0 := congrFun hcr 0
      have c1 := congrFun hcr 1
      have c2 := congrFun hcr 2
      simp [cross] at c0 c1 c2
      have hnr : n = C • r := by
        have hr' : dot r r = 1 := hr
        rw [dot_self] at hr'
        funext i
        rw [hC, dot_eq]
        fin_cases i
        · simp
          linear_combination (-(n 0)) * hr' - r 1 * c2 + r 2 * c1
        · simp
          linear_combination (-(n 1)) * hr' + r 0 * c2 - r 2 * c0
        · simp
          linear_combination (-(n 2)) * hr' - r 0 * c1 + r 1 * c0
      rw [hnr, smul_smul, ← add_smul]
      have : w / (1 + b * C) + (C + b - w * C) / (1 + b * C) * C = 1 := by
        field_simp
        linear_combination (1 - w) * hC2
      rw [this, one_smul]
  · have hv0 := vabs_eq_zero hz.symm
    rw [hv0, vabs_zero, boost_zero]
    have : Bprm 0 (fun i => (0 : Vec) i / 0) r = 1 := if_neg (lt_irrefl _)
    rw [this, rotateVec_one]
    unfold dir null
    simp

/-- The grid of `transform_supertranslation`: directions and conformal factors of null vectors. -/
theorem grid_eq (q : Quaternion ℝ) (v r : Vec) (hq : Quaternion.normSq q = 1) (hv : dot v v < 1) (hr : Sphere r) :
    gridDirection q v r = dir (act q v (null r)) ∧ gridK v (gridDirection q v r) = (act q v (null r)).1 := by
  have hr1 : Sphere (rotateVec q r) := by
    unfold Sphere
    rw [rotateVec_dot q hq]
    exact hr
  have hd : gridDirection q v r = dir (act q v (null r)) := aberrated v (rotateVec q r) hv hr1
  refine ⟨hd, ?_⟩
  rw [hd]
  have hX : act q v (null r) = boost v (null (rotateVec q r)) := rfl
  rw [hX]
  have hfut := boost_future v hv (future_null hr1)
  generalize rotateVec q r = r1 at *
  have hp := gam_pos v hv
  have hg := gam_sq v hv
  have habs := abs_lt.mp (vdot_abs v hv (future_null hr1))
  have hvr : 0 < 1 + dot v r1 := by
    have := habs.1
    simp [null] at this
    linarith
  have h2 : dot v (boost v (null r1)).2 = dot v r1 + (gam v ^ 2 / (gam v + 1) * dot v r1 + gam v) * dot v v := by
    unfold boost null
    simp only
    rw [dot_add, dot_smul, mul_one]
  have h1 : (boost v (null r1)).1 = gam v * (1 + dot v r1) := rfl
  have hsum : ∑ i, dir (boost v (null r1)) i * v i = (gam v * (1 + dot v r1))⁻¹ * dot v (boost v (null r1)).2 := by
    rw [← h1, ← dot_smul, dot_comm]
    rfl
  unfold gridK
  rw [hsum, h2, h1]
  have hgv : gamma (vabs v) = gam v := by rw [gamma, gam, vabs_sq]
  rw [hgv]
  have hkw : gam v ^ 2 / (gam v + 1) * dot v v = gam v - 1 := by
    rw [div_mul_eq_mul_div, div_eq_iff (by linarith)]
    linear_combination -hg
  generalize dot v r1 = y at *
  have e : y + (gam v ^ 2 / (gam v + 1) * y + gam v) * dot v v = gam v * y + gam v * dot v v := by
    linear_combination y * hkw
  rw [e]
  generalize gam v = g at *
  generalize dot v v = z at *
  have hy : (1 + y) ≠ 0 := hvr.ne'
  have : g * (1 - (g * (1 + y))⁻¹ * (g * y + g * z)) = (g * (1 + y))⁻¹ := by
    field_simp
    linear_combination hg
  rw [this, one_div, inv_inv]

end Verif.Lemmas.Bms
