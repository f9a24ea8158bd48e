import Verif.Spec.BoostTensor
import Verif.Props.FourMomentum
import Verif.Props.Cwwy

/-!
# C94: the boost charge and the angular momentum in a boosted frame
-/

namespace Verif.Props.BoostTensor
open Verif.Spec.BoostTensor Verif.Spec.FourMomentum Verif.Spec.BondiFrame Verif.Spec.Sphere Verif.AbdTransform Verif.Jets Verif.Props.BondiFrame Verif.Props.FourMomentum ComplexConjugate MeasureTheory

variable {beta : ℝ} {F : Fin 6 → Spec.BondiFrame.Field}

/-! ## The change of variables -/

/-- `ð̄r`, in closed form. -/
noncomputable def dn (i : Fin 3) (θ φ : ℝ) : ℂ := conj (Verif.Balance.ethN i θ φ) / (√2 : ℝ)

theorem dn_eq (i : Fin 3) {θ : ℝ} (h0 : 0 < θ) (h1 : θ < Real.pi) (φ : ℝ) : ethbarN i θ φ = dn i θ φ := by
  have hs := (Real.sin_pos_of_pos_of_lt_pi h0 h1).ne'
  have h := (Verif.Props.SphereOps.eth_differential 0 1 1 (Verif.Spec.Boost.chi i) θ φ hs).2
  have e : field 0 1 1 (Verif.Spec.Boost.chi i) = fun θ φ => ((nHat i θ φ : ℝ) : ℂ) := by
    funext θ φ
    exact Verif.Props.BoostFlux.chi_field i θ φ
  rw [e] at h
  unfold ethbarN dn
  rw [← (Verif.Balance.eth_nHat i θ φ hs).2, ← h]
  rfl

theorem dn_cont (i : Fin 3) : Continuous fun p : ℝ × ℝ => dn i p.1 p.2 := by
  unfold dn Verif.Balance.ethN
  have cc : Continuous fun p : ℝ × ℝ => ((Real.cos p.1 : ℝ) : ℂ) := by fun_prop
  have cs : Continuous fun p : ℝ × ℝ => ((Real.sin p.1 : ℝ) : ℂ) := by fun_prop
  have cC : Continuous fun p : ℝ × ℝ => ((Real.cos p.2 : ℝ) : ℂ) := by fun_prop
  have cS : Continuous fun p : ℝ × ℝ => ((Real.sin p.2 : ℝ) : ℂ) := by fun_prop
  refine (Complex.continuous_conj.comp ?_).div_const _
  split_ifs
  · exact (cc.neg.mul cC).add (continuous_const.mul cS)
  · exact (cc.neg.mul cS).sub (continuous_const.mul cC)
  · exact cs

/-- What a boost makes of a complex vector `N + i J`. -/
noncomputable def turn (beta : ℝ) (D : Fin 3 → ℂ) : Fin 3 → ℂ := ![gamma beta * (D 0 - Complex.I * beta * D 1), gamma beta * (D 1 + Complex.I * beta * D 0), D 2]

theorem dn_turn (hb : 0 ≤ beta) (hb1 : beta < 1) {θ : ℝ} (h0 : 0 < θ) (h1 : θ < Real.pi) (φ : ℝ) (i : Fin 3) :
    w beta (thetaOf beta θ) * dn i θ φ = turn beta (fun j => dn j (thetaOf beta θ) φ) i := by
  have hs := sin_theta hb hb1 h0 h1
  have h3 := null_vector hb hb1 h0 h1 φ 3
  have hz : w beta (thetaOf beta θ) * Real.cos θ = gamma beta * (Real.cos (thetaOf beta θ) - beta) := by
    have : w beta (thetaOf beta θ) * Real.cos θ = gamma beta * (Real.cos (thetaOf beta θ) - beta * 1) := h3
    rw [this, mul_one]
  have hw : w beta (thetaOf beta θ) = gamma beta * (1 - beta * Real.cos (thetaOf beta θ)) := rfl
  have hzc := congrArg (fun x : ℝ => (x : ℂ)) hz
  have hsc := congrArg (fun x : ℝ => (x : ℂ)) hs
  have hwc := congrArg (fun x : ℝ => (x : ℂ)) hw
  push_cast at hzc hsc hwc
  have d1 : ¬ (1 : Fin 3) = 0 := by decide
  have d2 : ¬ (2 : Fin 3) = 0 := by decide
  have d3 : ¬ (2 : Fin 3) = 1 := by decide
  have hI : Complex.I ^ 2 = -1 := Complex.I_sq
  fin_cases i
  · show (w beta (thetaOf beta θ) : ℂ) * dn 0 θ φ = gamma beta * (dn 0 (thetaOf beta θ) φ - Complex.I * beta * dn 1 (thetaOf beta θ) φ)
    simp only [dn, Verif.Balance.ethN, if_true, if_neg d1, map_add, map_sub, map_mul, map_neg, Complex.conj_ofReal, Complex.conj_I]
    generalize ((w beta (thetaOf beta θ) : ℝ) : ℂ) = W at *
    push_cast
    generalize ((√2 : ℝ) : ℂ) = r
    linear_combination (-(Complex.cos φ) / r) * hzc + (-(Complex.I * Complex.sin φ) / r) * hwc + (gamma beta * beta * Complex.cos φ / r) * hI
  · show (w beta (thetaOf beta θ) : ℂ) * dn 1 θ φ = gamma beta * (dn 1 (thetaOf beta θ) φ + Complex.I * beta * dn 0 (thetaOf beta θ) φ)
    simp only [dn, Verif.Balance.ethN, if_true, if_neg d1, map_add, map_sub, map_mul, map_neg, Complex.conj_ofReal, Complex.conj_I]
    generalize ((w beta (thetaOf beta θ) : ℝ) : ℂ) = W at *
    push_cast
    generalize ((√2 : ℝ) : ℂ) = r
    linear_combination (-(Complex.sin φ) / r) * hzc + ((Complex.I * Complex.cos φ) / r) * hwc + (gamma beta * beta * Complex.sin φ / r) * hI
  · show (w beta (thetaOf beta θ) : ℂ) * dn 2 θ φ = dn 2 (thetaOf beta θ) φ
    simp only [dn, Verif.Balance.ethN, if_neg d2, if_neg d3, Complex.conj_ofReal]
    push_cast
    rw [hsc]
    ring

theorem change_dn (hb : 0 ≤ beta) (hb1 : beta < 1) (h : ℝ → ℝ → ℂ) (i : Fin 3) :
    solid (fun θ φ => (w beta (thetaOf beta θ) : ℂ) ^ 3 * h (thetaOf beta θ) φ * dn i θ φ) = solid fun θ φ => h θ φ * turn beta (fun j => dn j θ φ) i := by
  rw [solid_open, solid_open]
  have key := integral_image_eq_integral_abs_deriv_smul (s := Set.Ioo 0 Real.pi) (f := thetaOf beta) (f' := fun θ => w beta (thetaOf beta θ)) measurableSet_Ioo
    (fun x hx => (theta_der hb hb1 hx.1 hx.2).hasDerivWithinAt) (theta_inj beta) (fun θ => ∫ φ in (0 : ℝ)..(2 * Real.pi), h θ φ * turn beta (fun j => dn j θ φ) i * Real.sin θ)
  rw [theta_image] at key
  rw [key]
  refine setIntegral_congr_fun measurableSet_Ioo fun θ hθ => ?_
  simp only [abs_of_pos (w_pos hb hb1 (thetaOf beta θ)), ← dn_turn hb hb1 hθ.1 hθ.2, sin_theta hb hb1 hθ.1 hθ.2, Complex.real_smul, ← intervalIntegral.integral_const_mul]
  congr 1
  funext φ
  push_cast
  ring

theorem dipole_dn {Q H : ℝ → ℝ → ℂ} (h : ∀ θ φ, 0 < θ → θ < Real.pi → Q θ φ = H θ φ) (i : Fin 3) : dipole Q i = (-(1 / (4 * Real.pi)) : ℝ) * solid fun θ φ => H θ φ * dn i θ φ := by
  unfold dipole
  congr 1
  exact solid_congr fun θ φ h0 h1 => by rw [h θ φ h0 h1, dn_eq i h0 h1]

/-- An aspect of conformal weight 3. -/
theorem dipole_boost (hb : 0 ≤ beta) (hb1 : beta < 1) {Q Q' H : ℝ → ℝ → ℂ} (hH : Continuous fun p : ℝ × ℝ => H p.1 p.2) (hQ : ∀ θ φ, 0 < θ → θ < Real.pi → Q θ φ = H θ φ)
    (h : ∀ θ φ, 0 < θ → θ < Real.pi → Q' θ φ = (w beta (thetaOf beta θ) : ℂ) ^ 3 * H (thetaOf beta θ) φ) : dipole Q' = turn beta (dipole Q) := by
  have c : ∀ j, Continuous fun p : ℝ × ℝ => H p.1 p.2 * dn j p.1 p.2 := fun j => hH.mul (dn_cont j)
  have e : ∀ i, dipole Q' i = (-(1 / (4 * Real.pi)) : ℝ) * solid fun θ φ => H θ φ * turn beta (fun j => dn j θ φ) i := fun i => by
    rw [dipole_dn h, change_dn hb hb1]
  have q : ∀ i, dipole Q i = _ := fun i => dipole_dn hQ i
  have l0 := solid_lin (f := fun θ φ => H θ φ * dn 0 θ φ) (g := fun θ φ => H θ φ * dn 1 θ φ) (c 0) (c 1) (gamma beta) (-(gamma beta * (Complex.I * beta)))
  have l1 := solid_lin (f := fun θ φ => H θ φ * dn 1 θ φ) (g := fun θ φ => H θ φ * dn 0 θ φ) (c 1) (c 0) (gamma beta) (gamma beta * (Complex.I * beta))
  funext i
  rw [e]
  fin_cases i
  · show _ = (gamma beta : ℂ) * (dipole Q 0 - Complex.I * beta * dipole Q 1)
    rw [solid_congr (G := fun θ φ => gamma beta * (H θ φ * dn 0 θ φ) + -(gamma beta * (Complex.I * beta)) * (H θ φ * dn 1 θ φ)) fun θ φ _ _ => by
      show H θ φ * (gamma beta * (dn 0 θ φ - Complex.I * beta * dn 1 θ φ)) = _
      ring, l0, q, q]
    ring
  · show _ = (gamma beta : ℂ) * (dipole Q 1 + Complex.I * beta * dipole Q 0)
    rw [solid_congr (G := fun θ φ => gamma beta * (H θ φ * dn 1 θ φ) + (gamma beta * (Complex.I * beta)) * (H θ φ * dn 0 θ φ)) fun θ φ _ _ => by
      show H θ φ * (gamma beta * (dn 1 θ φ + Complex.I * beta * dn 0 θ φ)) = _
      ring, l1, q, q]
    ring
  · show _ = dipole Q 2
    rw [q]
    rfl

theorem turn_tensor (hb : 0 ≤ beta) (hb1 : beta < 1) (D D' : Fin 3 → ℂ) (h : D' = turn beta D) : tensor (fun i => (D' i).re) (fun i => (D' i).im) = seen2 beta (tensor (fun i => (D i).re) fun i => (D i).im) := by
  have hr := root_pos hb hb1
  have hq : gamma beta ^ 2 * (1 - beta ^ 2) = 1 := by
    unfold gamma
    rw [div_pow, Real.sq_sqrt (by nlinarith)]
    have : (1 - beta ^ 2 : ℝ) ≠ 0 := by nlinarith
    field_simp
  have r0 : (D' 0).re = gamma beta * ((D 0).re + beta * (D 1).im) := by rw [h]; simp [turn]
  have r1 : (D' 1).re = gamma beta * ((D 1).re - beta * (D 0).im) := by rw [h]; simp [turn]; left; ring
  have r2 : (D' 2).re = (D 2).re := by rw [h]; rfl
  have i0 : (D' 0).im = gamma beta * ((D 0).im - beta * (D 1).re) := by rw [h]; simp [turn]
  have i1 : (D' 1).im = gamma beta * ((D 1).im + beta * (D 0).re) := by rw [h]; simp [turn]
  have i2 : (D' 2).im = (D 2).im := by rw [h]; rfl
  funext m n
  fin_cases m <;> fin_cases n <;> simp [tensor, seen2, seen, r0, r1, r2, i0, i1, i2] <;> first | ring1 | (right; ring1) | linear_combination ((D 2).re) * hq | linear_combination (-(D 2).re) * hq

/-! ## The aspect in the new frame -/

theorem zero_smooth : Smooth (A fun _ _ => 0) := smooth_congr (Smooth_const 0) fun _ _ _ _ _ => by simp [A]

theorem eth_const (s : Int) (u θ φ : ℝ) : eth s (fun _ _ _ => 0) u θ φ = 0 := by simp [Spec.BondiFrame.eth, Spec.SphereOps.ethOp]

theorem A_zero : A (fun _ _ => 0) = fun _ _ _ => 0 := by funext _ _ _; simp [A]

theorem ethA_zero (s : Int) : eth s (fun _ _ _ => 0) = fun _ _ _ => (0 : ℂ) := by funext u θ φ; exact eth_const s u θ φ

theorem ee_zero (u θ φ : ℝ) : ee beta (fun _ _ => 0) u θ φ = kap beta θ * u := by
  unfold ee
  rw [show (fun _ _ _ => ((0 : ℝ) : ℂ) : Spec.BondiFrame.Field) = fun _ _ _ => 0 from by funext _ _ _; simp, eth_const]
  simp

theorem B_zero : B (fun _ _ => 0) = fun _ _ _ => 0 := by
  unfold B
  rw [A_zero, ethA_zero, ethA_zero]
  funext _ _ _
  simp [Spec.BondiFrame.bar]

theorem old_zero (u θ φ : ℝ) : oldTime beta (fun _ _ => 0) u θ φ = u * w beta θ := by unfold oldTime; ring

/-- The terms of the aspect with the shear only. -/
theorem shear_part (hb : 0 ≤ beta) (hb1 : beta < 1) (hs : Smooth (F 5)) (u θ φ : ℝ) (h0 : 0 < θ) (h1 : θ < Real.pi) (U Θ : ℝ) (hU : U = u * w beta Θ) (hΘ : Θ = thetaOf beta θ)
    (hn : kap beta Θ * U * dt (bar (F 5)) U Θ φ = 0) (hn' : kap beta Θ * U * dt (F 5) U Θ φ = 0) :
    moved beta (fun _ _ => 0) F 5 u θ φ * eth (-2) (bar (moved beta (fun _ _ => 0) F 5)) u θ φ +
        1 / 2 * eth 0 (fun u θ φ => moved beta (fun _ _ => 0) F 5 u θ φ * bar (moved beta (fun _ _ => 0) F 5) u θ φ) u θ φ =
      (w beta Θ : ℂ) ^ 3 * (F 5 U Θ φ * eth (-2) (bar (F 5)) U Θ φ + 1 / 2 * eth 0 (fun u θ φ => F 5 u θ φ * bar (F 5) u θ φ) U Θ φ) := by
  have hp0 := theta_pos hb1 h0 h1
  have hp1 := theta_lt beta θ
  have jb := (bar_jet hb hb1 (zero_smooth) hs u θ φ h0 h1).2
  have j5 := smooth_jet 2 hs U Θ φ (hΘ ▸ hp0) (hΘ ▸ hp1)
  have jB := smooth_jet (-2) (Smooth_bar hs) U Θ φ (hΘ ▸ hp0) (hΘ ▸ hp1)
  have j := ((j5.mul jB).spin (show (2 + -2 : Int) = 0 by norm_num))
  have jp := ((jet_w2 hb hb1 U Θ φ).mul j).congr (g := fun u θ φ => G beta (fun _ _ => 0) F 5 u θ φ * bar (G beta (fun _ _ => 0) F 5) u θ φ) (hΘ ▸ hp0) (hΘ ▸ hp1) fun u θ φ _ _ => by
    rw [bar5, G5, A_zero, ethA_zero, ethA_zero, B_zero]
    ring
  have hO : oldTime beta (fun _ _ => 0) u (thetaOf beta θ) φ = U := by rw [old_zero, hU, hΘ]
  rw [hΘ] at jp
  rw [← hO] at jp
  have jm := (moved_jet hb hb1 zero_smooth _ h0 h1 jp).spin (show (0 + 0 : Int) = 0 by norm_num)
  have e2 : (fun u θ φ => moved beta (fun _ _ => 0) F 5 u θ φ * bar (moved beta (fun _ _ => 0) F 5) u θ φ) = fun u θ φ =>
      (fun u θ φ => G beta (fun _ _ => 0) F 5 u θ φ * bar (G beta (fun _ _ => 0) F 5) u θ φ) (oldTime beta (fun _ _ => 0) u (thetaOf beta θ) φ) (thetaOf beta θ) φ := by
    rw [moved_eq]
    rfl
  rw [e2, jm.eth, jb, j.eth, hO, ← hΘ, B_zero, ethA_zero, ee_zero]
  rw [moved_eq]
  rw [← hΘ] at hO
  simp only [← hΘ, hO, G5, bar5, A_zero, ethA_zero, B_zero]
  push_cast
  linear_combination (-(w beta Θ : ℂ) ^ 3 * F 5 U Θ φ * (3 / 2)) * hn - ((w beta Θ : ℂ) ^ 3 * bar (F 5) U Θ φ / 2) * hn'

/-- At the time 0 of both frames the aspect has conformal weight 3, whatever the data. -/
theorem aspect_zero (hb : 0 ≤ beta) (hb1 : beta < 1) (hs : Smooth (F 5)) (θ φ : ℝ) (h0 : 0 < θ) (h1 : θ < Real.pi) :
    aspect (moved beta (fun _ _ => 0) F) 0 θ φ = (w beta (thetaOf beta θ) : ℂ) ^ 3 * aspect F 0 (thetaOf beta θ) φ := by
  have h := shear_part hb hb1 hs 0 θ φ h0 h1 0 (thetaOf beta θ) (by ring) rfl (by simp) (by simp)
  have e1 : moved beta (fun _ _ => 0) F 1 0 θ φ = (w beta (thetaOf beta θ) : ℂ) ^ 3 * F 1 0 (thetaOf beta θ) φ := by
    rw [moved_eq]
    simp only [old_zero, zero_mul, G1, ee_zero]
    simp
  unfold aspect
  rw [e1]
  simp only [Complex.ofReal_zero, zero_mul, sub_zero]
  linear_combination h

/-- C94: on the cut `u = 0`, which is the same for a frame and the frame boosted with the velocity `beta`, the boost charge and the angular momentum are the components of an antisymmetric tensor, for all data, with or without radiation. -/
theorem tensor_cut (hb : 0 ≤ beta) (hb1 : beta < 1) (hs : Smooth (F 5)) {H : ℝ → ℝ → ℂ} (hH : Continuous fun p : ℝ × ℝ => H p.1 p.2) (hQ : ∀ θ φ, 0 < θ → θ < Real.pi → aspect F 0 θ φ = H θ φ) :
    tensor (boost (moved beta (fun _ _ => 0) F) 0) (angular (moved beta (fun _ _ => 0) F) 0) = seen2 beta (tensor (boost F 0) (angular F 0)) :=
  turn_tensor hb hb1 _ _ (dipole_boost hb hb1 hH hQ fun θ φ h0 h1 => by rw [aspect_zero hb hb1 hs θ φ h0 h1, hQ _ _ (theta_pos hb1 h0 h1) (theta_lt beta θ)])

/-! ## Data without news -/

theorem const_eth (s : Int) {f : Spec.BondiFrame.Field} (hf : Smooth f) (hc : ∀ x y θ φ, 0 < θ → θ < Real.pi → f x θ φ = f y θ φ) (x y θ φ : ℝ) (h0 : 0 < θ) (h1 : θ < Real.pi) :
    eth s f x θ φ = eth s f y θ φ := by
  have hg : Smooth fun _ θ φ => f y θ φ := smooth_congr hf fun u θ φ h0 h1 => hc y u θ φ h0 h1
  exact ((smooth_jet s hg x θ φ h0 h1).congr (g := f) h0 h1 fun u θ φ h0 h1 => hc u y θ φ h0 h1).eth

theorem const_of_dt {f : Spec.BondiFrame.Field} (hf : Smooth f) (hd : ∀ u θ φ, 0 < θ → θ < Real.pi → dt f u θ φ = 0) (x y θ φ : ℝ) (h0 : 0 < θ) (h1 : θ < Real.pi) : f x θ φ = f y θ φ := by
  have h : ∀ v, HasDerivAt (fun x => f x θ φ) 0 v := by
    intro v
    obtain ⟨a, b, H, -⟩ := (smooth_jet 0 hf v θ φ h0 h1).ex
    have := H.u
    rwa [hd v θ φ h0 h1] at this
  exact is_const_of_deriv_eq_zero (fun v => (h v).differentiableAt) (fun v => (h v).deriv) x y

theorem dt_of_const {f : Spec.BondiFrame.Field} (hc : ∀ x y θ φ, 0 < θ → θ < Real.pi → f x θ φ = f y θ φ) (u θ φ : ℝ) (h0 : 0 < θ) (h1 : θ < Real.pi) : dt f u θ φ = 0 := by
  unfold dt
  rw [show (fun x => f x θ φ) = fun _ => f u θ φ from funext fun x => hc x u θ φ h0 h1]
  exact deriv_const _ _

/-- Real and imaginary part as functions. -/
noncomputable def reF (f : Spec.BondiFrame.Field) : Spec.BondiFrame.Field := fun u θ φ => ((f u θ φ).re : ℂ)
noncomputable def imF (f : Spec.BondiFrame.Field) : Spec.BondiFrame.Field := fun u θ φ => ((f u θ φ).im : ℂ)

theorem smooth_reF {f : Spec.BondiFrame.Field} (hf : Smooth f) : Smooth (reF f) := smooth_congr (Smooth_mul (Smooth_const (1 / 2)) (Smooth_add hf (Smooth_bar hf))) fun u θ φ _ _ => by
  unfold reF Spec.BondiFrame.bar
  rw [Complex.add_conj]
  push_cast
  ring

theorem smooth_imF {f : Spec.BondiFrame.Field} (hf : Smooth f) : Smooth (imF f) := smooth_congr (Smooth_mul (Smooth_const (-Complex.I / 2)) (Smooth_add hf (Smooth_mul (Smooth_const (-1)) (Smooth_bar hf)))) fun u θ φ _ _ => by
  have h := Complex.sub_conj (f u θ φ)
  unfold imF Spec.BondiFrame.bar
  push_cast at h
  linear_combination (Complex.I / 2) * h + ((f u θ φ).im : ℂ) * Complex.I_sq

theorem eth_parts {f : Spec.BondiFrame.Field} (hf : Smooth f) (u θ φ : ℝ) (h0 : 0 < θ) (h1 : θ < Real.pi) : eth 0 f u θ φ = eth 0 (reF f) u θ φ + Complex.I * eth 0 (imF f) u θ φ :=
  (((smooth_jet 0 (smooth_reF hf) u θ φ h0 h1).add ((smooth_jet 0 (smooth_imF hf) u θ φ h0 h1).smul Complex.I)).congr (g := f) h0 h1 fun u θ φ _ _ => by
    unfold reF imF
    rw [mul_comm]
    exact (Complex.re_add_im _).symm).eth

/-- What does not change in time if there is no news. -/
structure Still (F : Fin 6 → Spec.BondiFrame.Field) : Prop where
  c5 : ∀ x y θ φ, 0 < θ → θ < Real.pi → F 5 x θ φ = F 5 y θ φ
  c2 : ∀ x y θ φ, 0 < θ → θ < Real.pi → F 2 x θ φ = F 2 y θ φ
  z3 : ∀ u θ φ, 0 < θ → θ < Real.pi → F 3 u θ φ = 0
  z4 : ∀ u θ φ, 0 < θ → θ < Real.pi → F 4 u θ φ = 0
  c1 : ∀ u θ φ, 0 < θ → θ < Real.pi → F 1 u θ φ = F 1 0 θ φ + u * eth 0 (F 2) 0 θ φ

theorem still (hF : Bondi F) (hs : ∀ c, Smooth (F c)) (hn : ∀ u θ φ, 0 < θ → θ < Real.pi → dt (bar (F 5)) u θ φ = 0) : Still F := by
  have c5 : ∀ x y θ φ, 0 < θ → θ < Real.pi → F 5 x θ φ = F 5 y θ φ := fun x y θ φ h0 h1 => by
    have := congrArg conj (const_of_dt (Smooth_bar (hs 5)) hn x y θ φ h0 h1)
    simpa [Spec.BondiFrame.bar] using this
  have z3 : ∀ u θ φ, 0 < θ → θ < Real.pi → F 3 u θ φ = 0 := fun u θ φ h0 h1 => by rw [hF.c3 u θ φ h0 h1, eth_zero (-2) hn u θ φ h0 h1, neg_zero]
  have z4 : ∀ u θ φ, 0 < θ → θ < Real.pi → F 4 u θ φ = 0 := fun u θ φ h0 h1 => by
    rw [hF.c4 u θ φ h0 h1, dt]
    simp only [hn _ _ _ h0 h1, deriv_const, neg_zero]
  have c2 := const_of_dt (hs 2) fun v θ φ h0 h1 => by rw [hF.b2 v θ φ h0 h1, eth_zero (-1) z3 v θ φ h0 h1, z4 v θ φ h0 h1]; ring
  refine ⟨c5, c2, z3, z4, fun u θ φ h0 h1 => ?_⟩
  have hd : ∀ v, HasDerivAt (fun x : ℝ => F 1 x θ φ - x * eth 0 (F 2) 0 θ φ) 0 v := by
    intro v
    obtain ⟨a, b, H, -⟩ := (smooth_jet 1 (hs 1) v θ φ h0 h1).ex
    have h2 := (Complex.ofRealCLM.hasDerivAt (x := v)).mul_const (eth 0 (F 2) 0 θ φ)
    refine (H.u.sub h2).congr_deriv ?_
    rw [hF.b1 v θ φ h0 h1, z3 v θ φ h0 h1, const_eth 0 (hs 2) c2 v 0 θ φ h0 h1]
    simp
  have := is_const_of_deriv_eq_zero (fun v => (hd v).differentiableAt) (fun v => (hd v).deriv) u 0
  simp only [Complex.ofReal_zero, zero_mul, sub_zero] at this
  rw [← this]
  ring

theorem aspect_still (hS : Still F) (hs : ∀ c, Smooth (F c)) (u θ φ : ℝ) (h0 : 0 < θ) (h1 : θ < Real.pi) :
    aspect F u θ φ = aspect F 0 θ φ + Complex.I * u * eth 0 (imF (F 2)) 0 θ φ := by
  have cb : ∀ x y θ φ, 0 < θ → θ < Real.pi → bar (F 5) x θ φ = bar (F 5) y θ φ := fun x y θ φ h0 h1 => by unfold Spec.BondiFrame.bar; rw [hS.c5 x y θ φ h0 h1]
  have hb5 : ∀ u θ φ, 0 < θ → θ < Real.pi → dt (bar (F 5)) u θ φ = 0 := dt_of_const cb
  have hm : Smooth fun u θ φ => F 5 u θ φ * bar (F 5) u θ φ := Smooth_mul (hs 5) (Smooth_bar (hs 5))
  have e3 : eth 0 (fun u θ φ => ((F 2 u θ φ + F 5 u θ φ * dt (bar (F 5)) u θ φ).re : ℂ)) u θ φ = eth 0 (reF (F 2)) 0 θ φ := by
    rw [((smooth_jet 0 (smooth_reF (hs 2)) u θ φ h0 h1).congr (g := fun u θ φ => ((F 2 u θ φ + F 5 u θ φ * dt (bar (F 5)) u θ φ).re : ℂ)) h0 h1 fun u θ φ h0 h1 => by
      rw [hb5 u θ φ h0 h1, mul_zero, add_zero]
      rfl).eth]
    exact const_eth 0 (smooth_reF (hs 2)) (fun x y θ φ h0 h1 => by unfold reF; rw [hS.c2 x y θ φ h0 h1]) u 0 θ φ h0 h1
  unfold aspect
  rw [e3, hS.c1 u θ φ h0 h1, hS.c5 u 0 θ φ h0 h1, const_eth (-2) (Smooth_bar (hs 5)) cb u 0 θ φ h0 h1,
    const_eth 0 hm (fun x y θ φ h0 h1 => by rw [hS.c5 x y θ φ h0 h1, cb x y θ φ h0 h1]) u 0 θ φ h0 h1, eth_parts (hs 2) 0 θ φ h0 h1]
  simp only [Complex.ofReal_zero, zero_mul, sub_zero]
  ring

theorem aspect_moved (hb : 0 ≤ beta) (hb1 : beta < 1) (hS : Still F) (hs : ∀ c, Smooth (F c)) (u θ φ : ℝ) (h0 : 0 < θ) (h1 : θ < Real.pi) :
    aspect (moved beta (fun _ _ => 0) F) u θ φ = (w beta (thetaOf beta θ) : ℂ) ^ 3 * (aspect F 0 (thetaOf beta θ) φ + Complex.I * u *
      (w beta (thetaOf beta θ) * (eth 0 (imF (F 2)) 0 (thetaOf beta θ) φ - 3 * kap beta (thetaOf beta θ) * imF (F 2) 0 (thetaOf beta θ) φ))) := by
  have hp0 := theta_pos hb1 h0 h1
  have hp1 := theta_lt beta θ
  obtain ⟨Θ, hΘ⟩ : ∃ Θ, Θ = thetaOf beta θ := ⟨_, rfl⟩
  obtain ⟨U, hU⟩ : ∃ U, U = u * w beta Θ := ⟨_, rfl⟩
  have hO : oldTime beta (fun _ _ => 0) u (thetaOf beta θ) φ = U := by rw [old_zero, hU, hΘ]
  rw [← hΘ] at hp0 hp1 ⊢
  have cb : ∀ x y θ φ, 0 < θ → θ < Real.pi → bar (F 5) x θ φ = bar (F 5) y θ φ := fun x y θ φ h0 h1 => by unfold Spec.BondiFrame.bar; rw [hS.c5 x y θ φ h0 h1]
  have hb5 : ∀ u θ φ, 0 < θ → θ < Real.pi → dt (bar (F 5)) u θ φ = 0 := dt_of_const cb
  have hm : Smooth fun u θ φ => F 5 u θ φ * bar (F 5) u θ φ := Smooth_mul (hs 5) (Smooth_bar (hs 5))
  have sp := shear_part hb hb1 (hs 5) u θ φ h0 h1 U Θ hU hΘ (by rw [hb5 U Θ φ hp0 hp1, mul_zero]) (by rw [dt_of_const hS.c5 U Θ φ hp0 hp1, mul_zero])
  -- the mass aspect
  have jr := (jet_w3 hb hb1 U Θ φ).mul (smooth_jet 0 (smooth_reF (hs 2)) U Θ φ hp0 hp1)
  have hO' := hO
  rw [hΘ, ← hO] at jr
  have jm := (moved_jet hb hb1 zero_smooth _ h0 h1 jr).spin (show (0 + 0 : Int) = 0 by norm_num)
  have e3 := (jm.congr (g := fun u θ φ => ((moved beta (fun _ _ => 0) F 2 u θ φ + moved beta (fun _ _ => 0) F 5 u θ φ * dt (bar (moved beta (fun _ _ => 0) F 5)) u θ φ).re : ℂ)) h0 h1 fun u θ φ h0 h1 => by
    have q0 := theta_pos hb1 h0 h1
    have q1 := theta_lt beta θ
    rw [(bar_jet hb hb1 zero_smooth (hs 5) u θ φ h0 h1).1, hb5 _ _ _ q0 q1, mul_zero, mul_zero, add_zero, moved_eq]
    simp only [G2, hS.z3 _ _ _ q0 q1, hS.z4 _ _ _ q0 q1, mul_zero, sub_zero, add_zero]
    rw [← Complex.ofReal_pow, Complex.re_ofReal_mul]
    unfold reF
    push_cast
    ring).eth
  have cr : ∀ x y θ φ, 0 < θ → θ < Real.pi → reF (F 2) x θ φ = reF (F 2) y θ φ := fun x y θ φ h0 h1 => by unfold reF; rw [hS.c2 x y θ φ h0 h1]
  have e1 : moved beta (fun _ _ => 0) F 1 u θ φ = (w beta Θ : ℂ) ^ 3 * (F 1 0 Θ φ + U * eth 0 (F 2) 0 Θ φ - 3 * (kap beta Θ * U) * F 2 0 Θ φ) := by
    rw [moved_eq]
    simp only [hO]
    rw [← hΘ, G1, ee_zero, hS.z3 U Θ φ hp0 hp1, hS.z4 U Θ φ hp0 hp1, hS.c1 U Θ φ hp0 hp1, hS.c2 U 0 Θ φ hp0 hp1]
    ring
  have split : F 2 0 Θ φ = reF (F 2) 0 Θ φ + Complex.I * imF (F 2) 0 Θ φ := by
    unfold reF imF
    rw [mul_comm]
    exact (Complex.re_add_im _).symm
  rw [hO, ← hΘ, ee_zero, const_eth 0 (smooth_reF (hs 2)) cr U 0 Θ φ hp0 hp1, dt_of_const cr U Θ φ hp0 hp1, cr U 0 Θ φ hp0 hp1] at e3
  unfold aspect
  rw [e3, e1, eth_parts (hs 2) 0 Θ φ hp0 hp1, split]
  rw [hS.c5 U 0 Θ φ hp0 hp1, const_eth (-2) (Smooth_bar (hs 5)) cb U 0 Θ φ hp0 hp1,
    const_eth 0 hm (fun x y θ φ h0 h1 => by rw [hS.c5 x y θ φ h0 h1, cb x y θ φ h0 h1]) U 0 Θ φ hp0 hp1] at sp
  have hUc : (U : ℂ) = u * w beta Θ := by rw [hU]; push_cast; ring
  rw [hUc]
  simp only [Complex.ofReal_zero, zero_mul, sub_zero]
  push_cast
  linear_combination sp

section
open Verif.Spec.Boost Verif.Triple Verif.Supertranslation Verif.Balance
variable {L : Int} {p1 p2 s : Int → Int → ℂ}

/-- `-√2 w κ` is `ð` of `w`, which has modes with `ell ≤ 1` only. -/
theorem w_modes (hL : 1 ≤ L) (hb : 0 ≤ beta) (hb1 : beta < 1) (θ φ : ℝ) (h0 : 0 < θ) (h1 : θ < Real.pi) :
    field 0 0 L (trans (gamma beta) ![0, 0, -(gamma beta * beta)]) θ φ = w beta θ ∧
    field 1 0 L (Spec.Boost.eth 0 (trans (gamma beta) ![0, 0, -(gamma beta * beta)])) θ φ = -((√2 : ℝ) * (w beta θ * kap beta θ)) := by
  have hs := (Real.sin_pos_of_pos_of_lt_pi h0 h1).ne'
  constructor
  · rw [trans_field hL]
    simp [nHat, w]
    ring
  · rw [trans_eth hL _ _ _ _ hs]
    have := congrArg (fun x : ℝ => (x : ℂ)) (w_kap hb hb1 θ)
    have d2 : ¬ (2 : Fin 3) = 0 := by decide
    have d3 : ¬ (2 : Fin 3) = 1 := by decide
    simp only [ethN, if_neg d2, if_neg d3, Matrix.cons_val_zero, Matrix.cons_val_one, Matrix.cons_val]
    push_cast at this ⊢
    linear_combination -this

/-- A function without modes up to `ell = 1` does not contribute. -/
theorem kill (hL : 1 ≤ L) (hb : 0 ≤ beta) (hb1 : beta < 1) {q : Int → Int → ℂ} (hq : ∀ ell m, 0 ≤ ell → ell ≤ 1 → q ell m = 0) (i : Fin 3) :
    (solid fun θ φ => (w beta θ * (((1 / √2 : ℝ) : ℂ) * field 1 0 L (Spec.Boost.eth 0 q) θ φ - 3 * kap beta θ * field 0 0 L q θ φ)) * dn i θ φ) = 0 := by
  obtain ⟨tr, htr⟩ : ∃ tr, tr = trans (gamma beta) ![0, 0, -(gamma beta * beta)] := ⟨_, rfl⟩
  have h2 : ((√2 : ℝ) : ℂ) * (√2 : ℝ) = 2 := by exact_mod_cast congrArg (fun x : ℝ => (x : ℂ)) (Real.mul_self_sqrt (by norm_num : (0 : ℝ) ≤ 2))
  have h2n : ((√2 : ℝ) : ℂ) ≠ 0 := by exact_mod_cast (by positivity : √2 ≠ 0)
  have e : (solid fun θ φ => (w beta θ * (((1 / √2 : ℝ) : ℂ) * field 1 0 L (Spec.Boost.eth 0 q) θ φ - 3 * kap beta θ * field 0 0 L q θ φ)) * dn i θ φ) =
      solid fun θ φ => (1 / 2 : ℂ) * (field (-1) 1 1 (ethbar 0 (chi i)) θ φ * field 0 0 L tr θ φ * field 1 0 L (Spec.Boost.eth 0 q) θ φ) +
        (3 / 2 : ℂ) * (field (-1) 1 1 (ethbar 0 (chi i)) θ φ * field 1 0 L (Spec.Boost.eth 0 tr) θ φ * field 0 0 L q θ φ) := by
    refine Verif.Props.FourMomentum.solid_congr fun θ φ h0 h1 => ?_
    have hs := (Real.sin_pos_of_pos_of_lt_pi h0 h1).ne'
    obtain ⟨a1, a2⟩ := w_modes hL hb hb1 θ φ h0 h1
    rw [htr, a1, a2, (eth_nHat i θ φ hs).2]
    unfold dn
    push_cast
    field_simp
    generalize ((√2 : ℝ) : ℂ) = r at *
    linear_combination (w beta θ * conj (ethN i θ φ) * (field 1 0 L (Spec.Boost.eth 0 q) θ φ - 3 * r * kap beta θ * field 0 0 L q θ φ)) * (-h2) 
  rw [e, Verif.Balance.solid_add (C3.const _) (C3.const _), Verif.Balance.solid_const, Verif.Balance.solid_const]
  have t1 : (solid fun θ φ => field (-1) 1 1 (ethbar 0 (chi i)) θ φ * field 0 0 L tr θ φ * field 1 0 L (Spec.Boost.eth 0 q) θ φ) = T L (-1) (ethbar 0 (chi i)) 0 tr 1 (Spec.Boost.eth 0 q) := rfl
  have t2 : (solid fun θ φ => field (-1) 1 1 (ethbar 0 (chi i)) θ φ * field 1 0 L (Spec.Boost.eth 0 tr) θ φ * field 0 0 L q θ φ) = T L (-1) (ethbar 0 (chi i)) 1 (Spec.Boost.eth 0 tr) 0 q := rfl
  have p := p_ethbar_eth (b := L) i 0 q 0 tr (by norm_num)
  rw [show (0 : Int) + 1 = 1 by norm_num] at p
  have q1 := T_swap (b := L) (-1) (ethbar 0 (chi i)) 0 tr 1 (Spec.Boost.eth 0 q)
  have q2 := T_swap (b := L) (-1) (ethbar 0 (chi i)) 1 (Spec.Boost.eth 0 tr) 0 q
  have ti := trans_integral hL i (gamma beta) ![0, 0, -(gamma beta * beta)] q
  have pz : ∀ j, pair j q = 0 := fun j => by
    unfold pair
    rw [hq 1 (-1) (by norm_num) le_rfl, hq 1 0 (by norm_num) le_rfl, hq 1 1 (by norm_num) le_rfl]
    simp
  rw [hq 0 0 le_rfl (by norm_num), ← htr] at ti
  simp only [pz] at ti
  have ti' : T L (-1) (ethbar 0 (chi i)) 0 q 1 (Spec.Boost.eth 0 tr) + T L 0 (chi i) 0 q 0 tr = 0 := by
    rw [ti]
    fin_cases i <;> simp
  rw [t1, t2, q1, q2]
  linear_combination (1 / 2) * p + ti'

/-- Data that have modes up to `ell = L` at the time 0, and the same shear at all times. -/
structure Static (L : Int) (p1 p2 s : Int → Int → ℂ) (F : Fin 6 → Spec.BondiFrame.Field) : Prop where
  bondi : Bondi F
  smooth : ∀ c, Smooth (F c)
  sigma : ∀ u θ φ, 0 < θ → θ < Real.pi → F 5 u θ φ = field 2 0 L s θ φ
  psi1 : ∀ θ φ, 0 < θ → θ < Real.pi → F 1 0 θ φ = field 1 0 L p1 θ φ
  psi2 : ∀ θ φ, 0 < θ → θ < Real.pi → F 2 0 θ φ = field 0 0 L p2 θ φ

/-- What is used of them: the shear is the same at all times and has modes up to `ell = L`, and the aspect at the time 0 is a continuous function. -/
structure Steady (L : Int) (s : Int → Int → ℂ) (F : Fin 6 → Spec.BondiFrame.Field) : Prop where
  bondi : Bondi F
  smooth : ∀ c, Smooth (F c)
  sigma : ∀ u θ φ, 0 < θ → θ < Real.pi → F 5 u θ φ = field 2 0 L s θ φ
  cont : ∃ H : ℝ → ℝ → ℂ, (Continuous fun p : ℝ × ℝ => H p.1 p.2) ∧ ∀ θ φ, 0 < θ → θ < Real.pi → aspect F 0 θ φ = H θ φ

theorem Steady.still (h : Steady L s F) : Still F :=
  Verif.Props.BoostTensor.still h.bondi h.smooth (dt_of_const fun x y θ φ h0 h1 => by unfold Spec.BondiFrame.bar; rw [h.sigma x θ φ h0 h1, h.sigma y θ φ h0 h1])

/-- The imaginary part of `ψ₂` has no modes up to `ell = 1`. -/
theorem Steady.im (h : Steady L s F) : ∃ q : Int → Int → ℂ, (∀ ell m, 0 ≤ ell → ell ≤ 1 → q ell m = 0) ∧ ∀ u θ φ, 0 < θ → θ < Real.pi → imF (F 2) u θ φ = field 0 0 L q θ φ := by
  obtain ⟨q0, hq0⟩ : ∃ q0, q0 = Charges.ethGHP (-1) (Charges.ethGHP (-2) (Charges.bar 2 s)) := ⟨_, rfl⟩
  have hl : ∀ ell m, 0 ≤ ell → ell ≤ 1 → q0 ell m = 0 := fun ell m h0 h1 => by rw [hq0]; exact Verif.Props.Charges.eth_eth_low _ ell m h0 h1
  refine ⟨fun ell m => Complex.I / 2 * q0 ell m + -(Complex.I / 2) * Charges.bar 0 q0 ell m, fun ell m h0 h1 => ?_, fun u θ φ h0 h1 => ?_⟩
  · simp only [Charges.bar, hl ell _ h0 h1, map_zero, mul_zero, add_zero]
  · have e2 : ∀ u θ φ, 0 < θ → θ < Real.pi → bar (F 5) u θ φ = field (-2) 0 L (Charges.bar 2 s) θ φ := by
      intro u θ φ h0 h1
      rw [← Verif.Jets.field_conj, ← h.sigma u θ φ h0 h1]
      rfl
    have e3 : ∀ u θ φ, 0 < θ → θ < Real.pi → eth (-2) (bar (F 5)) u θ φ = field (-1) 0 L (Charges.ethGHP (-2) (Charges.bar 2 s)) θ φ := fun u θ φ h0 h1 => eth_modes (by norm_num) e2 u θ φ h0 h1
    have e4 : eth (-1) (eth (-2) (bar (F 5))) u θ φ = field 0 0 L q0 θ φ := by rw [hq0]; exact eth_modes (by norm_num) e3 u θ φ h0 h1
    have hd : dt (bar (F 5)) u θ φ = 0 := dt_of_const (fun x y θ φ h0 h1 => by rw [e2 x θ φ h0 h1, e2 y θ φ h0 h1]) u θ φ h0 h1
    have hm := h.bondi.mass u θ φ h0 h1
    unfold Spec.BondiFrame.massAspect at hm
    rw [hd, mul_zero, add_zero, e4, Complex.add_im] at hm
    have hc := Verif.Jets.field_conj 0 L q0 θ φ
    have hz := Complex.sub_conj (field 0 0 L q0 θ φ)
    rw [hc, neg_zero] at hz
    rw [Verif.Props.AngMomIntegral.field_sum, Verif.Props.SphereOps.field_const, Verif.Props.SphereOps.field_const]
    unfold imF
    have : ((F 2 u θ φ).im : ℂ) = -((field 0 0 L q0 θ φ).im : ℂ) := by
      rw [← Complex.ofReal_neg]
      congr 1
      linarith
    rw [this]
    push_cast at hz
    linear_combination (-(Complex.I / 2)) * hz - ((field 0 0 L q0 θ φ).im : ℂ) * Complex.I_sq

/-- The aspect at the time 0 is a continuous function. -/
theorem Static.cont (h : Static L p1 p2 s F) : ∃ H : ℝ → ℝ → ℂ, (Continuous fun p : ℝ × ℝ => H p.1 p.2) ∧ ∀ θ φ, 0 < θ → θ < Real.pi → aspect F 0 θ φ = H θ φ := by
  have e2 : ∀ u θ φ, 0 < θ → θ < Real.pi → bar (F 5) u θ φ = field (-2) 0 L (Charges.bar 2 s) θ φ := by
    intro u θ φ h0 h1
    rw [← Verif.Jets.field_conj, ← h.sigma u θ φ h0 h1]
    rfl
  have e3 : ∀ u θ φ, 0 < θ → θ < Real.pi → eth (-2) (bar (F 5)) u θ φ = field (-1) 0 L (Charges.ethGHP (-2) (Charges.bar 2 s)) θ φ := fun u θ φ h0 h1 => eth_modes (by norm_num) e2 u θ φ h0 h1
  have e5 : ∀ u θ φ, 0 < θ → θ < Real.pi → eth 2 (F 5) u θ φ = field 3 0 L (Charges.ethGHP 2 s) θ φ := fun u θ φ h0 h1 => eth_modes (by norm_num) h.sigma u θ φ h0 h1
  refine ⟨fun θ φ => field 1 0 L p1 θ φ + field 2 0 L s θ φ * field (-1) 0 L (Charges.ethGHP (-2) (Charges.bar 2 s)) θ φ +
    1 / 2 * (field 3 0 L (Charges.ethGHP 2 s) θ φ * field (-2) 0 L (Charges.bar 2 s) θ φ + field 2 0 L s θ φ * field (-1) 0 L (Charges.ethGHP (-2) (Charges.bar 2 s)) θ φ), ?_, fun θ φ h0 h1 => ?_⟩
  · have c : ∀ t f, Continuous fun p : ℝ × ℝ => field t 0 L f p.1 p.2 := fun t f => Verif.Props.FourMomentum.field_cont t f
    exact ((c _ _).add ((c _ _).mul (c _ _))).add (continuous_const.mul (((c _ _).mul (c _ _)).add ((c _ _).mul (c _ _))))
  · have j := ((smooth_jet 2 (h.smooth 5) 0 θ φ h0 h1).mul (smooth_jet (-2) (Smooth_bar (h.smooth 5)) 0 θ φ h0 h1)).spin (show (2 + -2 : Int) = 0 by norm_num)
    unfold aspect
    rw [j.eth, e3 0 θ φ h0 h1, e5 0 θ φ h0 h1, e2 0 θ φ h0 h1, h.psi1 θ φ h0 h1, h.sigma 0 θ φ h0 h1]
    simp

theorem Static.steady (h : Static L p1 p2 s F) : Steady L s F := ⟨h.bondi, h.smooth, h.sigma, h.cont⟩

theorem Static.still (h : Static L p1 p2 s F) : Still F := h.steady.still

theorem eth_im {q : Int → Int → ℂ} (hq : ∀ u θ φ, 0 < θ → θ < Real.pi → imF (F 2) u θ φ = field 0 0 L q θ φ) (u θ φ : ℝ) (h0 : 0 < θ) (h1 : θ < Real.pi) :
    eth 0 (imF (F 2)) u θ φ = ((1 / √2 : ℝ) : ℂ) * field 1 0 L (Spec.Boost.eth 0 q) θ φ := by
  rw [eth_field (s := 0) (s' := 1) (by norm_num) (f := imF (F 2)) (c := 1) (fun u θ φ h0 h1 => by rw [one_mul]; exact hq u θ φ h0 h1) u θ φ h0 h1]
  push_cast
  ring

/-- The term that is linear in the time. -/
noncomputable def tail (beta : ℝ) (L : Int) (q : Int → Int → ℂ) (θ φ : ℝ) : ℂ := w beta θ * (((1 / √2 : ℝ) : ℂ) * field 1 0 L (Spec.Boost.eth 0 q) θ φ - 3 * kap beta θ * field 0 0 L q θ φ)

theorem tail_cont (hb : 0 ≤ beta) (hb1 : beta < 1) (L : Int) (q : Int → Int → ℂ) : Continuous fun p : ℝ × ℝ => tail beta L q p.1 p.2 := by
  have cq := Verif.Props.FourMomentum.field_cont (L := L) 0 q
  have ceq := Verif.Props.FourMomentum.field_cont (L := L) 1 (Spec.Boost.eth 0 q)
  have cw : Continuous (w beta) := continuous_const.mul (continuous_const.sub (continuous_const.mul Real.continuous_cos))
  have ck : Continuous (kap beta) := by
    unfold kap
    exact (continuous_const.mul Real.continuous_sin).div (continuous_const.mul (continuous_const.sub (continuous_const.mul Real.continuous_cos))) fun θ => by
      have := den_pos hb hb1 θ
      positivity
  have cwc : Continuous fun p : ℝ × ℝ => ((w beta p.1 : ℝ) : ℂ) := Complex.continuous_ofReal.comp (cw.comp continuous_fst)
  have ckc : Continuous fun p : ℝ × ℝ => ((kap beta p.1 : ℝ) : ℂ) := Complex.continuous_ofReal.comp (ck.comp continuous_fst)
  unfold tail
  exact cwc.mul ((continuous_const.mul ceq).sub ((continuous_const.mul ckc).mul cq))

/-- The complex vector `N + i J` in both frames. -/
theorem Steady.turn (hL : 1 ≤ L) (hb : 0 ≤ beta) (hb1 : beta < 1) (h : Steady L s F) (u u' : ℝ) : dipole (aspect (moved beta (fun _ _ => 0) F) u') = Verif.Props.BoostTensor.turn beta (dipole (aspect F u)) := by
  obtain ⟨q, hlow, hq⟩ := h.im
  obtain ⟨H, hH, hQ⟩ := h.cont
  -- the additional term, for any velocity
  have extra : ∀ b', 0 ≤ b' → b' < 1 → ∀ (Q : ℝ → ℝ → ℂ) (v : ℝ), (∀ θ φ, 0 < θ → θ < Real.pi → Q θ φ = H θ φ + Complex.I * v * tail b' L q θ φ) →
      dipole Q = dipole (aspect F 0) := by
    intro b' hb hb1 Q v hQ'
    funext i
    rw [dipole_dn hQ' i, dipole_dn hQ i]
    congr 1
    have := solid_lin (f := fun θ φ => H θ φ * dn i θ φ) (g := fun θ φ => tail b' L q θ φ * dn i θ φ)
      (hH.mul (dn_cont i)) ((tail_cont hb hb1 L q).mul (dn_cont i)) 1 (Complex.I * v)
    rw [show solid (fun θ φ => tail b' L q θ φ * dn i θ φ) = 0 from kill hL hb hb1 hlow i] at this
    rw [one_mul, mul_zero, add_zero] at this
    rw [← this]
    exact Verif.Props.FourMomentum.solid_congr fun θ φ _ _ => by ring
  have g0 : gamma 0 = 1 := by simp [gamma]
  have old : dipole (aspect F u) = dipole (aspect F 0) := extra 0 le_rfl one_pos _ u fun θ φ h0 h1 => by
    rw [aspect_still h.still h.smooth u θ φ h0 h1, eth_im hq 0 θ φ h0 h1, hQ θ φ h0 h1]
    simp [tail, w, kap, g0]
  rw [old]
  obtain ⟨H', hH'⟩ : ∃ H' : ℝ → ℝ → ℂ, H' = fun θ φ => H θ φ + Complex.I * u' * tail beta L q θ φ := ⟨_, rfl⟩
  rw [← extra beta hb hb1 H' u' fun θ φ _ _ => by rw [hH']]
  refine dipole_boost hb hb1 (H := H') (Q := H') ?_ (fun _ _ _ _ => rfl) fun θ φ h0 h1 => ?_
  · rw [hH']
    exact hH.add (continuous_const.mul (tail_cont hb hb1 L q))
  · have hp0 := theta_pos hb1 h0 h1
    have hp1 := theta_lt beta θ
    rw [aspect_moved hb hb1 h.still h.smooth u' θ φ h0 h1, eth_im hq 0 _ φ hp0 hp1, hQ _ φ hp0 hp1, hq 0 _ φ hp0 hp1, hH']
    rfl

/-- C94: for data without news the boost charge and the angular momentum are the same at all times, and in the boosted frame, at all times of this frame, they are the components of the same antisymmetric tensor. -/
theorem tensor_static (hL : 1 ≤ L) (hb : 0 ≤ beta) (hb1 : beta < 1) (h : Static L p1 p2 s F) (u u' : ℝ) :
    tensor (boost (moved beta (fun _ _ => 0) F) u') (angular (moved beta (fun _ _ => 0) F) u') = seen2 beta (tensor (boost F u) (angular F u)) :=
  turn_tensor hb hb1 _ _ (h.steady.turn hL hb hb1 u u')

/-! ## What the code computes -/

/-- `ð` of a product. -/
noncomputable def dprod (L s t : Int) (f g : Int → Int → ℂ) (θ φ : ℝ) : ℂ :=
  ((1 / √2 : ℝ) : ℂ) * (field (s + 1) 0 L (Spec.Boost.eth s f) θ φ * field t 0 L g θ φ + field s 0 L f θ φ * field (t + 1) 0 L (Spec.Boost.eth t g) θ φ)

theorem dprod_cont (L s t : Int) (f g : Int → Int → ℂ) : Continuous fun p : ℝ × ℝ => dprod L s t f g p.1 p.2 := by
  have c : ∀ t f, Continuous fun p : ℝ × ℝ => field t 0 L f p.1 p.2 := fun t f => Verif.Props.FourMomentum.field_cont t f
  unfold dprod
  exact continuous_const.mul (((c _ _).mul (c _ _)).add ((c _ _).mul (c _ _)))

theorem jet_field (t : Int) (f : Int → Int → ℂ) (u θ φ : ℝ) (h0 : 0 < θ) (h1 : θ < Real.pi) : Jet t (fun _ θ φ => field t 0 L f θ φ) 0 (((1 / √2 : ℝ) : ℂ) * field (t + 1) 0 L (Spec.Boost.eth t f) θ φ) u θ φ := by
  refine Jet.cast (smooth_jet t (smooth_field t 0 L f) u θ φ h0 h1) ?_ ?_
  · simp [dt]
  · rw [eth_field (s := t) (s' := t + 1) rfl (f := fun _ θ φ => field t 0 L f θ φ) (c := 1) (fun u θ φ h0 h1 => by rw [one_mul]) u θ φ h0 h1]
    push_cast
    ring

theorem jet_prod (s t : Int) (hst : s + t = 0) (f g : Int → Int → ℂ) (u θ φ : ℝ) (h0 : 0 < θ) (h1 : θ < Real.pi) :
    Jet 0 (fun _ θ φ => field s 0 L f θ φ * field t 0 L g θ φ) 0 (dprod L s t f g θ φ) u θ φ := by
  have j := ((jet_field (L := L) s f u θ φ h0 h1).mul (jet_field (L := L) t g u θ φ h0 h1)).spin hst
  refine Jet.cast j (by ring) ?_
  unfold dprod
  ring

theorem dn_modes (i : Fin 3) (θ φ : ℝ) (h0 : 0 < θ) (h1 : θ < Real.pi) : dn i θ φ = ((1 / √2 : ℝ) : ℂ) * field (-1) 1 1 (ethbar 0 (chi i)) θ φ := by
  rw [(eth_nHat i θ φ (Real.sin_pos_of_pos_of_lt_pi h0 h1).ne').2]
  unfold dn
  push_cast
  ring

theorem parts (s t : Int) (hst : s + t = 0) (f g : Int → Int → ℂ) (i : Fin 3) : (solid fun θ φ => dprod L s t f g θ φ * dn i θ φ) = T L 0 (chi i) s f t g := by
  have e : (solid fun θ φ => dprod L s t f g θ φ * dn i θ φ) = solid fun θ φ => (1 / 2 : ℂ) * (field (-1) 1 1 (ethbar 0 (chi i)) θ φ * field (s + 1) 0 L (Spec.Boost.eth s f) θ φ * field t 0 L g θ φ) +
      (1 / 2 : ℂ) * (field (-1) 1 1 (ethbar 0 (chi i)) θ φ * field s 0 L f θ φ * field (t + 1) 0 L (Spec.Boost.eth t g) θ φ) := by
    refine Verif.Props.FourMomentum.solid_congr fun θ φ h0 h1 => ?_
    rw [dn_modes i θ φ h0 h1]
    unfold dprod
    linear_combination (field (-1) 1 1 (ethbar 0 (chi i)) θ φ * (field (s + 1) 0 L (Spec.Boost.eth s f) θ φ * field t 0 L g θ φ + field s 0 L f θ φ * field (t + 1) 0 L (Spec.Boost.eth t g) θ φ)) * Verif.Props.Cwwy.half
  rw [e, Verif.Balance.solid_add (C3.const _) (C3.const _), Verif.Balance.solid_const, Verif.Balance.solid_const]
  have p := p_ethbar_eth (b := L) i s f t g hst
  unfold T at p ⊢
  linear_combination (1 / 2) * p

theorem pair_bar (i : Fin 3) (f : Charges.Modes) : pair i (Charges.bar 0 f) = conj (pair i f) := by
  obtain ⟨a1, a2, a3, a4, a5, a6, a7, a8, a9⟩ := Verif.Props.BoostFlux.chi_values
  unfold pair Charges.bar
  fin_cases i
  · show conj (chi 0 1 (-1)) * _ + conj (chi 0 1 0) * _ + conj (chi 0 1 1) * _ = conj (conj (chi 0 1 (-1)) * f 1 (-1) + conj (chi 0 1 0) * f 1 0 + conj (chi 0 1 1) * f 1 1)
    rw [a1, a2, a3]
    simp
    ring
  · show conj (chi 1 1 (-1)) * _ + conj (chi 1 1 0) * _ + conj (chi 1 1 1) * _ = conj (conj (chi 1 1 (-1)) * f 1 (-1) + conj (chi 1 1 0) * f 1 0 + conj (chi 1 1 1) * f 1 1)
    rw [a4, a5, a6]
    simp
    ring
  · show conj (chi 2 1 (-1)) * _ + conj (chi 2 1 0) * _ + conj (chi 2 1 1) * _ = conj (conj (chi 2 1 (-1)) * f 1 (-1) + conj (chi 2 1 0) * f 1 0 + conj (chi 2 1 1) * f 1 1)
    rw [a7, a8, a9]
    simp

theorem pair_smul (i : Fin 3) (k : ℂ) (f : Charges.Modes) : pair i (fun ell m => k * f ell m) = k * pair i f := by unfold pair; ring

theorem pair_re (i : Fin 3) (f : Charges.Modes) : pair i (Charges.re f) = ((pair i f).re : ℂ) := by
  have e : Charges.re f = fun ell m => (1 / 2 : ℂ) * (f ell m + Charges.bar 0 f ell m) := by
    funext ell m
    unfold Charges.re
    ring
  rw [e, pair_smul, Verif.Props.Cwwy.pair_add, pair_bar, Complex.add_conj]
  push_cast
  ring

theorem pair_ghp (i : Fin 3) (f : Charges.Modes) : pair i (Charges.ethGHP 0 f) = pair i f := by
  unfold pair Charges.ethGHP
  norm_num

variable {mul : Int → Int → Charges.Modes → Charges.Modes → Charges.Modes}

theorem pair_mul (hmul : Verif.Spec.Balance.IsProduct L mul) (i : Fin 3) (s t : Int) (hst : s + t = 0) (f g : Charges.Modes) : pair i (mul s t f g) = T L 0 (chi i) s f t g := by
  rw [proj0 ((C.field s 0 L f).mul (C.field t 0 L g)) i _ fun m hm => by rw [hmul s t f g 1 m (by rw [hst]; norm_num) hm, hst]]
  unfold T
  congr 1
  funext θ φ
  ring

theorem charge_neg (f : Charges.Modes) : (do let v ← Charges.chargeVectorFromAspect (Charges.view1 fun ell m => -f ell m); pure (v.drop 1)) =
    (Except.ok (List.ofFn fun i : Fin 3 => -(pair i f).re / (4 * Real.pi)) : Py (List ℝ)) := by
  rw [Verif.Props.Charges.chargeVector_spec, ok_bind, pure_eq_ok]
  congr 1
  simp only [← Verif.Props.Cwwy.vec_neg]
  rw [List.ofFn_succ]
  rfl

theorem boost_eq (d : Charges.Abd) : Charges.bondiBoostCharge mul d = .ok (List.ofFn fun i : Fin 3 => -((pair i (Verif.Props.Cwwy.aspect mul d)).re + 1 / 2 * (pair i (mul 2 (-2) d.sigma (Charges.bar 2 d.sigma))).re
    - d.t * (pair i fun ell m => d.psi2 ell m + mul 2 (-2) d.sigma (Charges.bar 2 d.sigmaDot) ell m).re) / (4 * Real.pi)) := by
  have h := charge_neg (fun ell m => Charges.truncateEll 1 d.psi1 ell m + Charges.truncateEll 1 (mul 2 (-1) d.sigma (Charges.ethGHP (-2) (Charges.bar 2 d.sigma))) ell m
    + 0.5 * Charges.ethGHP 0 (Charges.truncateEll 1 (mul 2 (-2) d.sigma (Charges.bar 2 d.sigma))) ell m
    - d.t * Charges.ethGHP 0 (Charges.re fun ell m => Charges.truncateEll 1 d.psi2 ell m + Charges.truncateEll 1 (mul 2 (-2) d.sigma (Charges.bar 2 d.sigmaDot)) ell m) ell m)
  unfold Charges.bondiBoostCharge
  rw [h]
  congr 2
  funext i
  have e : pair i (fun ell m => Charges.truncateEll 1 d.psi1 ell m + Charges.truncateEll 1 (mul 2 (-1) d.sigma (Charges.ethGHP (-2) (Charges.bar 2 d.sigma))) ell m
    + 0.5 * Charges.ethGHP 0 (Charges.truncateEll 1 (mul 2 (-2) d.sigma (Charges.bar 2 d.sigma))) ell m
    - d.t * Charges.ethGHP 0 (Charges.re fun ell m => Charges.truncateEll 1 d.psi2 ell m + Charges.truncateEll 1 (mul 2 (-2) d.sigma (Charges.bar 2 d.sigmaDot)) ell m) ell m) =
      pair i (Verif.Props.Cwwy.aspect mul d) + 1 / 2 * pair i (Charges.ethGHP 0 (mul 2 (-2) d.sigma (Charges.bar 2 d.sigma)))
        - d.t * pair i (Charges.ethGHP 0 (Charges.re fun ell m => d.psi2 ell m + mul 2 (-2) d.sigma (Charges.bar 2 d.sigmaDot) ell m)) := by
    unfold pair Verif.Props.Cwwy.aspect Charges.ethGHP Charges.re Charges.bar
    simp only [Verif.Props.Cwwy.trunc_one]
    ring
  rw [e, pair_ghp, pair_ghp, pair_re]
  congr 2
  simp only [Complex.sub_re, Complex.add_re, Complex.re_ofReal_mul, Complex.ofReal_re]
  rw [show (1 / 2 : ℂ) = ((1 / 2 : ℝ) : ℂ) by norm_num, Complex.re_ofReal_mul]

theorem T_conj (i : Fin 3) (s t : Int) (f g : Charges.Modes) : T L 0 (chi i) (-s) (Charges.bar s f) (-t) (Charges.bar t g) = conj (T L 0 (chi i) s f t g) := by
  unfold T
  rw [← solid_conj C3]
  congr 1
  funext θ φ
  rw [map_mul, map_mul, Verif.Jets.field_conj, Verif.Jets.field_conj, Verif.Props.BoostFlux.chi_field, Complex.conj_ofReal]

theorem T_one (hL : 1 ≤ L) (i : Fin 3) (f : Charges.Modes) : T L 0 (chi i) 0 f 0 (constant 1) = pair i f := by
  rw [pair_field hL]
  unfold T
  congr 1
  funext θ φ
  rw [constant_field (by omega)]
  push_cast
  ring

/-- The integral of the aspect. -/
theorem aspect_integral (hL : 1 ≤ L) (hmul : Verif.Spec.Balance.IsProduct L mul) (d : Charges.Abd) (h1 : ∀ θ φ, 0 < θ → θ < Real.pi → F 1 d.t θ φ = field 1 0 L d.psi1 θ φ)
    (h2 : ∀ θ φ, 0 < θ → θ < Real.pi → F 2 d.t θ φ = field 0 0 L d.psi2 θ φ) (h5 : ∀ θ φ, 0 < θ → θ < Real.pi → F 5 d.t θ φ = field 2 0 L d.sigma θ φ)
    (hd : ∀ θ φ, 0 < θ → θ < Real.pi → dt (bar (F 5)) d.t θ φ = field (-2) 0 L (Charges.bar 2 d.sigmaDot) θ φ) (i : Fin 3) :
    dipole (aspect F d.t) i = (-(1 / (4 * Real.pi)) : ℝ) * (pair i (Verif.Props.Cwwy.aspect mul d) + ((1 / 2 * (pair i (mul 2 (-2) d.sigma (Charges.bar 2 d.sigma))).re
      - d.t * (pair i fun ell m => d.psi2 ell m + mul 2 (-2) d.sigma (Charges.bar 2 d.sigmaDot) ell m).re : ℝ) : ℂ)) := by
  have e2 : ∀ θ φ, 0 < θ → θ < Real.pi → bar (F 5) d.t θ φ = field (-2) 0 L (Charges.bar 2 d.sigma) θ φ := by
    intro θ φ h0 h1
    rw [← Verif.Jets.field_conj, ← h5 θ φ h0 h1]
    rfl
  have e3 : ∀ θ φ, 0 < θ → θ < Real.pi → eth (-2) (bar (F 5)) d.t θ φ = field (-1) 0 L (Charges.ethGHP (-2) (Charges.bar 2 d.sigma)) θ φ := fun θ φ h0 h1 =>
    eth_modes (f := fun _ => bar (F 5) d.t) (by norm_num) (fun _ => e2) d.t θ φ h0 h1
  have e4 : ∀ θ φ, 0 < θ → θ < Real.pi → eth 0 (fun u θ φ => F 5 u θ φ * bar (F 5) u θ φ) d.t θ φ = dprod L 2 (-2) d.sigma (Charges.bar 2 d.sigma) θ φ := fun θ φ h0 h1 =>
    ((jet_prod 2 (-2) (by norm_num) d.sigma (Charges.bar 2 d.sigma) d.t θ φ h0 h1).congr (g := fun _ θ φ => F 5 d.t θ φ * bar (F 5) d.t θ φ) h0 h1 fun _ θ φ h0 h1 => by rw [h5 θ φ h0 h1, e2 θ φ h0 h1]).eth
  obtain ⟨R, hR⟩ : ∃ R : ℝ → ℝ → ℂ, R = fun θ φ => 1 / 2 * (dprod L 0 0 d.psi2 (constant 1) θ φ + dprod L 2 (-2) d.sigma (Charges.bar 2 d.sigmaDot) θ φ
      + (dprod L 0 0 (Charges.bar 0 d.psi2) (constant 1) θ φ + dprod L (-2) 2 (Charges.bar 2 d.sigma) (Charges.bar (-2) (Charges.bar 2 d.sigmaDot)) θ φ)) := ⟨_, rfl⟩
  have c1 : ∀ θ φ, field 0 0 L (constant 1) θ φ = 1 := fun θ φ => by rw [constant_field (by omega)]; simp
  have e5 : ∀ θ φ, 0 < θ → θ < Real.pi → eth 0 (fun u θ φ => ((F 2 u θ φ + F 5 u θ φ * dt (bar (F 5)) u θ φ).re : ℂ)) d.t θ φ = R θ φ := fun θ φ h0 h1 => by
    rw [hR]
    refine (((((jet_prod (L := L) 0 0 (by norm_num) d.psi2 (constant 1) d.t θ φ h0 h1).add (jet_prod (L := L) 2 (-2) (by norm_num) d.sigma (Charges.bar 2 d.sigmaDot) d.t θ φ h0 h1)).add
      ((jet_prod (L := L) 0 0 (by norm_num) (Charges.bar 0 d.psi2) (constant 1) d.t θ φ h0 h1).add (jet_prod (L := L) (-2) 2 (by norm_num) (Charges.bar 2 d.sigma) (Charges.bar (-2) (Charges.bar 2 d.sigmaDot)) d.t θ φ h0 h1))).smul (1 / 2)).congr
      (g := fun _ θ φ => ((F 2 d.t θ φ + F 5 d.t θ φ * dt (bar (F 5)) d.t θ φ).re : ℂ)) h0 h1 fun _ θ φ h0 h1 => ?_).eth
    rw [h2 θ φ h0 h1, h5 θ φ h0 h1, hd θ φ h0 h1, c1]
    have k1 := Verif.Jets.field_conj 0 L d.psi2 θ φ
    have k2 := Verif.Jets.field_conj 2 L d.sigma θ φ
    have k3 := Verif.Jets.field_conj (-2) L (Charges.bar 2 d.sigmaDot) θ φ
    rw [neg_zero] at k1
    rw [neg_neg] at k3
    rw [← k1, ← k2, ← k3]
    have := Complex.add_conj (field 0 0 L d.psi2 θ φ + field 2 0 L d.sigma θ φ * field (-2) 0 L (Charges.bar 2 d.sigmaDot) θ φ)
    rw [map_add, map_mul] at this
    push_cast at this
    linear_combination -(1 / 2) * this
  have hA : ∀ θ φ, 0 < θ → θ < Real.pi → aspect F d.t θ φ = field 1 0 L d.psi1 θ φ + field 2 0 L d.sigma θ φ * field (-1) 0 L (Charges.ethGHP (-2) (Charges.bar 2 d.sigma)) θ φ
      + (1 / 2 * dprod L 2 (-2) d.sigma (Charges.bar 2 d.sigma) θ φ + -(d.t : ℂ) * R θ φ) := fun θ φ h0' h1' => by
    unfold aspect
    rw [h1 θ φ h0' h1', e3 θ φ h0' h1', e4 θ φ h0' h1', e5 θ φ h0' h1', h5 θ φ h0' h1']
    ring
  rw [dipole_dn hA i]
  congr 1
  have cf : ∀ t f, Continuous fun p : ℝ × ℝ => field t 0 L f p.1 p.2 := fun t f => Verif.Props.FourMomentum.field_cont t f
  have cD : ∀ s t f g, Continuous fun p : ℝ × ℝ => dprod L s t f g p.1 p.2 * dn i p.1 p.2 := fun s t f g => (dprod_cont L s t f g).mul (dn_cont i)
  have i1 : (solid fun θ φ => field 1 0 L d.psi1 θ φ * dn i θ φ) = pair i d.psi1 := by
    rw [pair_field1 hL, ← Verif.Balance.solid_const]
    exact Verif.Props.FourMomentum.solid_congr fun θ φ h0 h1 => by rw [dn_modes i θ φ h0 h1]; ring
  have i2 : (solid fun θ φ => (field 2 0 L d.sigma θ φ * field (-1) 0 L (Charges.ethGHP (-2) (Charges.bar 2 d.sigma)) θ φ) * dn i θ φ) = pair i (mul 2 (-1) d.sigma (Charges.ethGHP (-2) (Charges.bar 2 d.sigma))) := by
    have pt := Verif.Props.Cwwy.pair_T hmul i 2 (-2) d.sigma (Charges.bar 2 d.sigma) (by norm_num)
    rw [show (-2 : Int) + 1 = -1 by norm_num] at pt
    rw [pt]
    unfold T
    rw [← Verif.Balance.solid_const]
    refine Verif.Props.FourMomentum.solid_congr fun θ φ h0 h1 => ?_
    rw [dn_modes i θ φ h0 h1, Verif.Balance.ghp, Verif.Props.SphereOps.field_const]
    linear_combination (field 2 0 L d.sigma θ φ * field (-1) 0 L (Spec.Boost.eth (-2) (Charges.bar 2 d.sigma)) θ φ * field (-1) 1 1 (ethbar 0 (chi i)) θ φ) * Verif.Props.Cwwy.half
  have iR : (solid fun θ φ => R θ φ * dn i θ φ) = ((pair i fun ell m => d.psi2 ell m + mul 2 (-2) d.sigma (Charges.bar 2 d.sigmaDot) ell m).re : ℂ) := by
    have l1 := solid_lin (f := fun θ φ => dprod L 0 0 d.psi2 (constant 1) θ φ * dn i θ φ) (g := fun θ φ => dprod L 2 (-2) d.sigma (Charges.bar 2 d.sigmaDot) θ φ * dn i θ φ) (cD _ _ _ _) (cD _ _ _ _) 1 1
    have l2 := solid_lin (f := fun θ φ => dprod L 0 0 (Charges.bar 0 d.psi2) (constant 1) θ φ * dn i θ φ) (g := fun θ φ => dprod L (-2) 2 (Charges.bar 2 d.sigma) (Charges.bar (-2) (Charges.bar 2 d.sigmaDot)) θ φ * dn i θ φ)
      (cD _ _ _ _) (cD _ _ _ _) 1 1
    have l3 := solid_lin (f := fun θ φ => 1 * (dprod L 0 0 d.psi2 (constant 1) θ φ * dn i θ φ) + 1 * (dprod L 2 (-2) d.sigma (Charges.bar 2 d.sigmaDot) θ φ * dn i θ φ))
      (g := fun θ φ => 1 * (dprod L 0 0 (Charges.bar 0 d.psi2) (constant 1) θ φ * dn i θ φ) + 1 * (dprod L (-2) 2 (Charges.bar 2 d.sigma) (Charges.bar (-2) (Charges.bar 2 d.sigmaDot)) θ φ * dn i θ φ))
      ((continuous_const.mul (cD _ _ _ _)).add (continuous_const.mul (cD _ _ _ _))) ((continuous_const.mul (cD _ _ _ _)).add (continuous_const.mul (cD _ _ _ _))) (1 / 2) (1 / 2)
    rw [Verif.Props.FourMomentum.solid_congr (G := fun θ φ => 1 / 2 * (1 * (dprod L 0 0 d.psi2 (constant 1) θ φ * dn i θ φ) + 1 * (dprod L 2 (-2) d.sigma (Charges.bar 2 d.sigmaDot) θ φ * dn i θ φ)) +
      1 / 2 * (1 * (dprod L 0 0 (Charges.bar 0 d.psi2) (constant 1) θ φ * dn i θ φ) + 1 * (dprod L (-2) 2 (Charges.bar 2 d.sigma) (Charges.bar (-2) (Charges.bar 2 d.sigmaDot)) θ φ * dn i θ φ))) fun θ φ _ _ => by rw [hR]; ring,
      l3, l1, l2, parts 0 0 (by norm_num), parts 2 (-2) (by norm_num), parts 0 0 (by norm_num), parts (-2) 2 (by norm_num), T_one hL, T_one hL, pair_bar, ← pair_mul hmul i 2 (-2) (by norm_num)]
    have tc := T_conj (L := L) i 2 (-2) d.sigma (Charges.bar 2 d.sigmaDot)
    rw [neg_neg, ← pair_mul hmul i 2 (-2) (by norm_num)] at tc
    rw [tc, Verif.Props.Cwwy.pair_add]
    have := Complex.add_conj (pair i d.psi2 + pair i (mul 2 (-2) d.sigma (Charges.bar 2 d.sigmaDot)))
    rw [map_add] at this
    push_cast at this
    linear_combination (1 / 2) * this
  have cR : Continuous fun p : ℝ × ℝ => R p.1 p.2 * dn i p.1 p.2 := by
    rw [hR]
    have c : ∀ s t f g, Continuous fun p : ℝ × ℝ => dprod L s t f g p.1 p.2 := dprod_cont L
    exact (continuous_const.mul (((c _ _ _ _).add (c _ _ _ _)).add ((c _ _ _ _).add (c _ _ _ _)))).mul (dn_cont i)
  have real : pair i (mul 2 (-2) d.sigma (Charges.bar 2 d.sigma)) = ((pair i (mul 2 (-2) d.sigma (Charges.bar 2 d.sigma))).re : ℂ) := by
    have hbb : Charges.bar (-2) (Charges.bar 2 d.sigma) = d.sigma := by
      funext ell m
      unfold Charges.bar
      rw [map_mul, map_pow, map_neg, map_one, Complex.conj_conj, neg_neg, ← mul_assoc, ← pow_add]
      have : Even ((-2 + m).natAbs + (2 + -m).natAbs) := by
        rw [show (2 + -m).natAbs = (-2 + m).natAbs by omega]
        exact ⟨_, rfl⟩
      rw [this.neg_one_pow, one_mul]
    have tc := T_conj (L := L) i 2 (-2) d.sigma (Charges.bar 2 d.sigma)
    rw [neg_neg, hbb, T_swap, ← pair_mul hmul i 2 (-2) (by norm_num)] at tc
    exact (Complex.conj_eq_iff_re.1 tc.symm).symm
  have l1 := solid_lin (f := fun θ φ => field 1 0 L d.psi1 θ φ * dn i θ φ) (g := fun θ φ => (field 2 0 L d.sigma θ φ * field (-1) 0 L (Charges.ethGHP (-2) (Charges.bar 2 d.sigma)) θ φ) * dn i θ φ)
    ((cf _ _).mul (dn_cont i)) (((cf _ _).mul (cf _ _)).mul (dn_cont i)) 1 1
  have l2 := solid_lin (f := fun θ φ => dprod L 2 (-2) d.sigma (Charges.bar 2 d.sigma) θ φ * dn i θ φ) (g := fun θ φ => R θ φ * dn i θ φ) (cD _ _ _ _) cR (1 / 2) (-(d.t : ℂ))
  have l3 := solid_lin (f := fun θ φ => 1 * (field 1 0 L d.psi1 θ φ * dn i θ φ) + 1 * ((field 2 0 L d.sigma θ φ * field (-1) 0 L (Charges.ethGHP (-2) (Charges.bar 2 d.sigma)) θ φ) * dn i θ φ))
    (g := fun θ φ => 1 / 2 * (dprod L 2 (-2) d.sigma (Charges.bar 2 d.sigma) θ φ * dn i θ φ) + -(d.t : ℂ) * (R θ φ * dn i θ φ))
    ((continuous_const.mul ((cf _ _).mul (dn_cont i))).add (continuous_const.mul (((cf _ _).mul (cf _ _)).mul (dn_cont i)))) ((continuous_const.mul (cD _ _ _ _)).add (continuous_const.mul cR)) 1 1
  rw [Verif.Props.FourMomentum.solid_congr (G := fun θ φ => 1 * (1 * (field 1 0 L d.psi1 θ φ * dn i θ φ) + 1 * ((field 2 0 L d.sigma θ φ * field (-1) 0 L (Charges.ethGHP (-2) (Charges.bar 2 d.sigma)) θ φ) * dn i θ φ)) +
    1 * (1 / 2 * (dprod L 2 (-2) d.sigma (Charges.bar 2 d.sigma) θ φ * dn i θ φ) + -(d.t : ℂ) * (R θ φ * dn i θ φ))) fun θ φ _ _ => by ring, l3, l1, l2, i1, i2, iR, parts 2 (-2) (by norm_num), ← pair_mul hmul i 2 (-2) (by norm_num),
    show Verif.Props.Cwwy.aspect mul d = fun ell m => d.psi1 ell m + mul 2 (-1) d.sigma (Charges.ethGHP (-2) (Charges.bar 2 d.sigma)) ell m from rfl, Verif.Props.Cwwy.pair_add i d.psi1]
  push_cast
  linear_combination (1 / 2) * real

/-- C94: what the code computes from the modes of the data at one time is the boost charge and the angular momentum of the functions with these modes. -/
theorem code_charges (hL : 1 ≤ L) (hmul : Verif.Spec.Balance.IsProduct L mul) (d : Charges.Abd) (h1 : ∀ θ φ, 0 < θ → θ < Real.pi → F 1 d.t θ φ = field 1 0 L d.psi1 θ φ)
    (h2 : ∀ θ φ, 0 < θ → θ < Real.pi → F 2 d.t θ φ = field 0 0 L d.psi2 θ φ) (h5 : ∀ θ φ, 0 < θ → θ < Real.pi → F 5 d.t θ φ = field 2 0 L d.sigma θ φ)
    (hd : ∀ θ φ, 0 < θ → θ < Real.pi → dt (bar (F 5)) d.t θ φ = field (-2) 0 L (Charges.bar 2 d.sigmaDot) θ φ) :
    Charges.bondiBoostCharge mul d = .ok (List.ofFn (boost F d.t)) ∧ Charges.bondiAngularMomentum mul d = .ok (List.ofFn (angular F d.t)) := by
  have h := fun i => aspect_integral hL hmul d h1 h2 h5 hd i
  constructor
  · rw [boost_eq]
    congr 2
    funext i
    unfold boost
    rw [h i, Complex.re_ofReal_mul, Complex.add_re, Complex.ofReal_re]
    ring
  · rw [Verif.Props.Cwwy.bondi_eq]
    congr 2
    funext i
    unfold angular
    rw [h i, Complex.im_ofReal_mul, Complex.add_im, Complex.ofReal_im]
    ring

end

/-! ## The spin -/

/-- The Pauli-Lubanski vector `(J·p, E J + p × N)`. -/
def lubanski (N J : Fin 3 → ℝ) (P : Fin 4 → ℝ) : Fin 4 → ℝ :=
  ![J 0 * P 1 + J 1 * P 2 + J 2 * P 3, P 0 * J 0 + (P 2 * N 2 - P 3 * N 1), P 0 * J 1 + (P 3 * N 0 - P 1 * N 2), P 0 * J 2 + (P 1 * N 1 - P 2 * N 0)]

theorem gamma_sq (hb : 0 ≤ beta) (hb1 : beta < 1) : gamma beta ^ 2 * (1 - beta ^ 2) = 1 := by
  unfold gamma
  rw [div_pow, Real.sq_sqrt (by nlinarith)]
  have : (1 - beta ^ 2 : ℝ) ≠ 0 := by nlinarith
  field_simp

theorem tensor_components {N J N' J' : Fin 3 → ℝ} (hb : 0 ≤ beta) (hb1 : beta < 1) (h : tensor N' J' = seen2 beta (tensor N J)) :
    N' 0 = gamma beta * (N 0 + beta * J 1) ∧ N' 1 = gamma beta * (N 1 - beta * J 0) ∧ N' 2 = N 2 ∧
    J' 0 = gamma beta * (J 0 - beta * N 1) ∧ J' 1 = gamma beta * (J 1 + beta * N 0) ∧ J' 2 = J 2 := by
  have hq := gamma_sq hb hb1
  have e : ∀ m n, tensor N' J' m n = seen2 beta (tensor N J) m n := fun m n => by rw [h]
  have a1 := e 1 0
  have a2 := e 2 0
  have a3 := e 3 0
  have b1 := e 2 3
  have b2 := e 3 1
  have b3 := e 1 2
  simp [tensor, seen2, seen] at a1 a2 a3 b1 b2 b3
  refine ⟨?_, ?_, ?_, ?_, ?_, ?_⟩
  · exact a1
  · exact a2
  · rw [a3]; linear_combination (N 2) * hq
  · exact b1
  · exact b2
  · exact b3

/-- The Pauli-Lubanski vector is a vector. -/
theorem lubanski_seen {N J N' J' : Fin 3 → ℝ} {P : Fin 4 → ℝ} (hb : 0 ≤ beta) (hb1 : beta < 1) (h : tensor N' J' = seen2 beta (tensor N J)) : lubanski N' J' (seen beta P) = seen beta (lubanski N J P) := by
  have hq := gamma_sq hb hb1
  obtain ⟨e1, e2, e3, e4, e5, e6⟩ := tensor_components hb hb1 h
  funext b
  fin_cases b
  · simp [lubanski, seen, e1, e2, e3, e4, e5, e6]
    ring
  · simp [lubanski, seen, e1, e2, e3, e4, e5, e6]
    linear_combination (P 0 * J 0 - P 3 * N 1) * hq
  · simp [lubanski, seen, e1, e2, e3, e4, e5, e6]
    linear_combination (P 0 * J 1 + P 3 * N 0) * hq
  · simp [lubanski, seen, e1, e2, e3, e4, e5, e6]
    ring

theorem spin_square (N J : Fin 3 → ℝ) (P : Fin 4 → ℝ) (hE : 0 < P 0) (hm : 0 < square P) :
    square P ^ 3 * ∑ i, Charges.dimensionlessSpin N J (P 0) (fun i => P i.succ) i ^ 2 = -square (lubanski N J P) := by
  obtain ⟨m, hm0, hmm⟩ : ∃ m, 0 < m ∧ m ^ 2 = square P := ⟨√(square P), Real.sqrt_pos.2 hm, Real.sq_sqrt hm.le⟩
  have hmass : m ^ 2 = P 0 ^ 2 - ∑ i : Fin 3, P i.succ ^ 2 := by
    rw [hmm, Fin.sum_univ_three]
    show P 0 ^ 2 - P 1 ^ 2 - P 2 ^ 2 - P 3 ^ 2 = P 0 ^ 2 - (P 1 ^ 2 + P 2 ^ 2 + P 3 ^ 2)
    ring
  have h := fun i => Verif.Props.Charges.spin_pauli_lubanski N J (fun i => P i.succ) (P 0) m hE hm0 hmass i
  have h0 := h 0
  have h1 := h 1
  have h2 := h 2
  have hs0 : (Fin.succ 0 : Fin 4) = 1 := rfl
  have hs1 : (Fin.succ 1 : Fin 4) = 2 := rfl
  have hs2 : (Fin.succ 2 : Fin 4) = 3 := rfl
  simp only [Fin.sum_univ_three, hs0, hs1, hs2, Matrix.cons_val_zero, Matrix.cons_val_one, Matrix.cons_val] at h0 h1 h2 hmass
  have hEm : P 0 + m ≠ 0 := by positivity
  obtain ⟨k, hk⟩ : ∃ k, k = (J 0 * P 1 + J 1 * P 2 + J 2 * P 3) / (P 0 + m) := ⟨_, rfl⟩
  have hk' : k * (P 0 + m) = J 0 * P 1 + J 1 * P 2 + J 2 * P 3 := by rw [hk]; field_simp
  rw [← hk] at h0 h1 h2
  rw [← hmm, Fin.sum_univ_three]
  have e : (m ^ 2) ^ 3 * (Charges.dimensionlessSpin N J (P 0) (fun i => P i.succ) 0 ^ 2 + Charges.dimensionlessSpin N J (P 0) (fun i => P i.succ) 1 ^ 2 + Charges.dimensionlessSpin N J (P 0) (fun i => P i.succ) 2 ^ 2) =
      (m ^ 2 * m * Charges.dimensionlessSpin N J (P 0) (fun i => P i.succ) 0) ^ 2 + (m ^ 2 * m * Charges.dimensionlessSpin N J (P 0) (fun i => P i.succ) 1) ^ 2 + (m ^ 2 * m * Charges.dimensionlessSpin N J (P 0) (fun i => P i.succ) 2) ^ 2 := by ring
  rw [e, h0, h1, h2]
  unfold square
  simp only [lubanski, Matrix.cons_val_zero, Matrix.cons_val_one, Matrix.cons_val]
  rw [← hk']
  linear_combination (k ^ 2) * hmass + (2 * k * P 0) * hk'

/-- C94: the magnitude of the dimensionless spin that the code computes is the same in the boosted frame. -/
theorem spin_invariant {N J N' J' : Fin 3 → ℝ} {P : Fin 4 → ℝ} (hb : 0 ≤ beta) (hb1 : beta < 1) (h : tensor N' J' = seen2 beta (tensor N J)) (hE : 0 < P 0) (hm : 0 < square P) :
    ∑ i, Charges.dimensionlessSpin N' J' (seen beta P 0) (fun i => seen beta P i.succ) i ^ 2 = ∑ i, Charges.dimensionlessSpin N J (P 0) (fun i => P i.succ) i ^ 2 := by
  have hg : 0 < gamma beta := one_div_pos.2 (root_pos hb hb1)
  have hP : P 3 < P 0 := by
    unfold square at hm
    nlinarith [sq_nonneg (P 1), sq_nonneg (P 2)]
  have hE' : 0 < seen beta P 0 := by
    show 0 < gamma beta * (P 0 - beta * P 3)
    refine mul_pos hg ?_
    nlinarith
  have h1 := spin_square N J P hE hm
  have h2 := spin_square N' J' (seen beta P) hE' (by rw [square_seen hb hb1]; exact hm)
  rw [lubanski_seen hb hb1 h, square_seen hb hb1, square_seen hb hb1, ← h1] at h2
  exact mul_left_cancel₀ (by positivity) h2

/-- C94: the magnitude of the dimensionless spin of data without news is the same at all times, and in the boosted frame. -/
theorem spin_static {L : Int} {p1 p2 s : Int → Int → ℂ} (hL : 1 ≤ L) (hb : 0 ≤ beta) (hb1 : beta < 1) (h : Static L p1 p2 s F) (hc : ∀ u, Continuous fun p : ℝ × ℝ => F 2 u p.1 p.2) (u u' : ℝ) {P P' : Fin 4 → ℝ}
    (hP : P = momentum fun θ φ => F 2 u θ φ + F 5 u θ φ * dt (bar (F 5)) u θ φ)
    (hP' : P' = momentum fun θ φ => moved beta (fun _ _ => 0) F 2 u' θ φ + moved beta (fun _ _ => 0) F 5 u' θ φ * dt (bar (moved beta (fun _ _ => 0) F 5)) u' θ φ) (hE : 0 < P 0) (hm : 0 < square P) :
    ∑ i, Charges.dimensionlessSpin (boost (moved beta (fun _ _ => 0) F) u') (angular (moved beta (fun _ _ => 0) F) u') (P' 0) (fun i => P' i.succ) i ^ 2 =
      ∑ i, Charges.dimensionlessSpin (boost F u) (angular F u) (P 0) (fun i => P i.succ) i ^ 2 := by
  have hz : (ofModes L fun _ _ => 0) = fun _ _ => 0 := by
    funext θ φ
    simp [ofModes, Verif.Spec.Sphere.field]
  have hn : ∀ u θ φ, 0 < θ → θ < Real.pi → dt (bar (F 5)) u θ φ = 0 :=
    dt_of_const fun x y θ φ h0 h1 => by unfold Spec.BondiFrame.bar; rw [h.sigma x θ φ h0 h1, h.sigma y θ φ h0 h1]
  have key := (four_momentum (beta := beta) (L := L) (a := fun _ _ => 0) hb hb1 (fun ell m => by simp) h.bondi h.smooth hc hn _ _ (fun _ => rfl) (fun _ => rfl) u u').1
  rw [hz, ← hP, ← hP'] at key
  rw [key]
  exact spin_invariant hb hb1 (tensor_static hL hb hb1 h u u') hE hm

/-! ## An example: a rotating mass -/

/-- `ψ₂ = -M`, and `ψ₁` has the modes `p` with `ell = 1`. -/
noncomputable def rotating (M : ℝ) (p : Int → Int → ℂ) : Fin 6 → Spec.BondiFrame.Field := fun c _ θ φ => if c = 2 then -(M : ℂ) else if c = 1 then field 1 0 1 p θ φ else 0

theorem rotating_static (M : ℝ) (p : Int → Int → ℂ) : Static 1 p (Verif.Supertranslation.constant (-M)) (fun _ _ => 0) (rotating M p) := by
  have h5 : rotating M p 5 = fun _ _ _ => 0 := rfl
  have h4 : rotating M p 4 = fun _ _ _ => 0 := rfl
  have h3 : rotating M p 3 = fun _ _ _ => 0 := rfl
  have h2 : rotating M p 2 = fun _ _ _ => -(M : ℂ) := rfl
  have h1 : rotating M p 1 = fun _ θ φ => field 1 0 1 p θ φ := rfl
  have h0 : rotating M p 0 = fun _ _ _ => 0 := rfl
  have low : ∀ ell m, 0 ≤ ell → ell ≤ 1 → Charges.ethGHP 1 p ell m = 0 := by
    intro ell m a b
    have : ell = 0 ∨ ell = 1 := by omega
    rcases this with rfl | rfl
    · have : √(-1) = 0 := Real.sqrt_eq_zero_of_nonpos (by norm_num)
      simp [Charges.ethGHP, this]
    · simp [Charges.ethGHP]
  have z : ∀ u θ φ, 0 < θ → θ < Real.pi → eth 1 (rotating M p 1) u θ φ = 0 := by
    intro u θ φ a b
    rw [h1, eth_modes (s := 1) (s' := 2) (by norm_num) (L := 1) (g := p) (fun _ _ _ _ _ => rfl) u θ φ a b]
    exact Finset.sum_eq_zero fun ell h => Finset.sum_eq_zero fun m _ => by
      rw [Finset.mem_Icc] at h
      rw [low ell m h.1 h.2, zero_mul]
  refine ⟨⟨?_, ?_, ?_, ?_, ?_, ?_⟩, ?_, ?_, ?_, ?_⟩
  · intro u θ φ a b
    rw [z u θ φ a b]
    simp [h0, h5, dt]
  · intro u θ φ a b
    simp [h1, h2, h5, dt, Spec.BondiFrame.eth, Spec.SphereOps.ethOp]
  · intro u θ φ a b
    simp [h2, h3, h5, dt, Spec.BondiFrame.eth, Spec.SphereOps.ethOp]
  · intro u θ φ a b
    simp [h3, h5, dt, Spec.BondiFrame.bar, Spec.BondiFrame.eth, Spec.SphereOps.ethOp]
  · intro u θ φ a b
    simp [h4, h5, dt, Spec.BondiFrame.bar]
  · intro u θ φ a b
    simp [h2, h5, Spec.BondiFrame.massAspect, dt, Spec.BondiFrame.bar, Spec.BondiFrame.eth, Spec.SphereOps.ethOp]
  · intro c
    by_cases hc : c = 1
    · subst hc
      rw [h1]
      exact smooth_field 1 0 1 p
    · intro u θ φ _ _
      have : (fun q : ℝ × ℝ × ℝ => rotating M p c q.1 q.2.1 q.2.2) = fun _ => if c = 2 then -(M : ℂ) else 0 := by
        funext q
        simp [rotating, hc]
      rw [this]
      exact contDiffAt_const
  · intro u θ φ a b
    simp [h5, field]
  · intro θ φ a b
    rfl
  · intro θ φ a b
    rw [Verif.Supertranslation.constant_field (by norm_num), h2]
    simp

/-- A rotating mass, in the frame with 3/5 of the velocity of light, at all times of both frames. -/
example (M : ℝ) (p : Int → Int → ℂ) (u u' : ℝ) :
    tensor (boost (moved (3 / 5) (fun _ _ => 0) (rotating M p)) u') (angular (moved (3 / 5) (fun _ _ => 0) (rotating M p)) u') = seen2 (3 / 5) (tensor (boost (rotating M p) u) (angular (rotating M p) u)) :=
  tensor_static le_rfl (by norm_num) (by norm_num) (rotating_static M p) u u'

end Verif.Props.BoostTensor
