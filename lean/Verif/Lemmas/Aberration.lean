import Verif.Lemmas.Jets
import Mathlib.Analysis.SpecialFunctions.Trigonometric.ArctanDeriv

/-!
# Derivatives in the boosted and supertranslated frame
-/

namespace Verif.Jets
open Verif.Spec.BondiFrame Verif.Spec.SphereOps Verif.AbdTransform

variable {beta : ℝ}

/-- `1/k` as a function of the polar angle. -/
noncomputable def w (beta θ : ℝ) : ℝ := gamma beta * (1 - beta * Real.cos θ)

/-- `ðk/k`. -/
noncomputable def kap (beta θ : ℝ) : ℝ := beta * Real.sin θ / (√2 * (1 - beta * Real.cos θ))

theorem den_pos (hb : 0 ≤ beta) (hb1 : beta < 1) (θ : ℝ) : 0 < 1 - beta * Real.cos θ := by nlinarith [Real.cos_le_one θ, Real.neg_one_le_cos θ]

theorem root_pos (hb : 0 ≤ beta) (hb1 : beta < 1) : 0 < √(1 - beta ^ 2) := Real.sqrt_pos.2 (by nlinarith)

theorem w_pos (hb : 0 ≤ beta) (hb1 : beta < 1) (θ : ℝ) : 0 < w beta θ := mul_pos (one_div_pos.2 (root_pos hb hb1)) (den_pos hb hb1 θ)

theorem factor_eq (beta θ : ℝ) : factor beta θ = 1 / w beta θ := rfl

theorem theta_pos (hb1 : beta < 1) {θ : ℝ} (h0 : 0 < θ) (h1 : θ < Real.pi) : 0 < thetaOf beta θ := by
  unfold thetaOf
  have : 0 < Real.tan (θ / 2) := Real.tan_pos_of_pos_of_lt_pi_div_two (by linarith) (by linarith)
  have h2 : 0 < Real.arctan (Real.exp (-Real.artanh beta) * Real.tan (θ / 2)) := Real.arctan_pos.mpr (by positivity)
  linarith

theorem theta_lt (beta θ : ℝ) : thetaOf beta θ < Real.pi := by
  unfold thetaOf
  linarith [Real.arctan_lt_pi_div_two (Real.exp (-Real.artanh beta) * Real.tan (θ / 2))]

theorem w_theta (hb : 0 ≤ beta) (hb1 : beta < 1) {θ : ℝ} (h0 : 0 < θ) (h1 : θ < Real.pi) : w beta (thetaOf beta θ) = √(1 - beta ^ 2) / (1 + beta * Real.cos θ) := by
  have hr := root_pos hb hb1
  have hs : √(1 - beta ^ 2) ^ 2 = 1 - beta ^ 2 := Real.sq_sqrt (by nlinarith)
  have hd : 0 < 1 + beta * Real.cos θ := by nlinarith [Real.cos_le_one θ, Real.neg_one_le_cos θ]
  unfold w gamma
  rw [Props.AbdTransform.cos_thetaOf beta θ hb hb1 h0.le h1]
  field_simp
  linear_combination -hs

/-- The polar angle changes by the factor `1/k`. -/
theorem theta_der (hb : 0 ≤ beta) (hb1 : beta < 1) {θ : ℝ} (h0 : 0 < θ) (h1 : θ < Real.pi) : HasDerivAt (thetaOf beta) (w beta (thetaOf beta θ)) θ := by
  rw [w_theta hb hb1 h0 h1]
  have hm : 0 < 1 - beta := by linarith
  have hp : 0 < 1 + beta := by linarith
  have hE : Real.exp (-Real.artanh beta) ^ 2 = (1 - beta) / (1 + beta) := by
    rw [Real.exp_neg, inv_pow, Real.exp_artanh ⟨by linarith, hb1⟩, Real.sq_sqrt (div_pos hp hm).le, inv_div]
  have hE1 : Real.exp (-Real.artanh beta) = √(1 - beta ^ 2) / (1 + beta) := by
    refine (sq_eq_sq₀ (Real.exp_pos _).le (by positivity)).1 ?_
    rw [hE, div_pow, Real.sq_sqrt (by nlinarith)]
    field_simp
    ring
  have hc : 0 < Real.cos (θ / 2) := Real.cos_pos_of_mem_Ioo ⟨by linarith [Real.pi_pos], by linarith⟩
  have h2 : HasDerivAt (fun x : ℝ => x / 2) (1 / 2) θ := (hasDerivAt_id θ).div_const 2
  have h3 : HasDerivAt (fun x : ℝ => Real.tan (x / 2)) (1 / Real.cos (θ / 2) ^ 2 * (1 / 2)) θ := HasDerivAt.comp (h₂ := Real.tan) θ (Real.hasDerivAt_tan hc.ne') h2
  have h4 := ((h3.const_mul (Real.exp (-Real.artanh beta))).arctan).const_mul 2
  refine Eq.subst (motive := fun d => HasDerivAt (thetaOf beta) d θ) ?_ h4
  have ht : Real.tan (θ / 2) ^ 2 = (1 - Real.cos (θ / 2) ^ 2) / Real.cos (θ / 2) ^ 2 := by
    rw [Real.tan_eq_sin_div_cos, div_pow, Real.sin_sq]
  have hcc : Real.cos θ = 2 * Real.cos (θ / 2) ^ 2 - 1 := by
    rw [← Real.cos_two_mul]
    ring_nf
  rw [mul_pow, hE, ht, hE1, hcc]
  generalize Real.cos (θ / 2) = c at hc hcc ⊢
  have hc2 : 2 * c ^ 2 - 1 ≤ 1 := by rw [← hcc]; exact Real.cos_le_one _
  have hden : 0 < 1 + beta * (2 * c ^ 2 - 1) := by nlinarith [sq_nonneg c]
  have : 1 + (1 - beta) / (1 + beta) * ((1 - c ^ 2) / c ^ 2) = (1 + beta * (2 * c ^ 2 - 1)) / ((1 + beta) * c ^ 2) := by
    field_simp
    ring
  rw [this]
  field_simp

/-- `sin θ = sin θ' / k`. -/
theorem sin_theta (hb : 0 ≤ beta) (hb1 : beta < 1) {θ : ℝ} (h0 : 0 < θ) (h1 : θ < Real.pi) : Real.sin (thetaOf beta θ) = w beta (thetaOf beta θ) * Real.sin θ := by
  rw [w_theta hb hb1 h0 h1, Verif.Lemmas.Bms.sin_thetaOf beta θ hb hb1 h0.le h1]
  ring

/-- `cot θ'`. -/
theorem cot_theta (hb : 0 ≤ beta) (hb1 : beta < 1) {θ : ℝ} (h0 : 0 < θ) (h1 : θ < Real.pi) :
    Real.cos θ / Real.sin θ = w beta (thetaOf beta θ) * (Real.cos (thetaOf beta θ) / Real.sin (thetaOf beta θ) - √2 * kap beta (thetaOf beta θ)) := by
  have hd : 0 < 1 + beta * Real.cos θ := by nlinarith [Real.cos_le_one θ, Real.neg_one_le_cos θ]
  have hr := root_pos hb hb1
  have hs := Real.sin_pos_of_pos_of_lt_pi h0 h1
  have hq : Real.sin θ ^ 2 = 1 - Real.cos θ ^ 2 := Real.sin_sq θ
  have h2 : √2 ≠ 0 := by positivity
  have hn := den_pos hb hb1 (thetaOf beta θ)
  have hsq : √(1 - beta ^ 2) ^ 2 = 1 - beta ^ 2 := Real.sq_sqrt (by nlinarith)
  unfold kap
  have e : 1 - beta * Real.cos (thetaOf beta θ) = √(1 - beta ^ 2) ^ 2 / (1 + beta * Real.cos θ) := by
    rw [Props.AbdTransform.cos_thetaOf beta θ hb hb1 h0.le h1, hsq]
    field_simp
    ring
  rw [e, w_theta hb hb1 h0 h1, Verif.Lemmas.Bms.sin_thetaOf beta θ hb hb1 h0.le h1, Props.AbdTransform.cos_thetaOf beta θ hb hb1 h0.le h1]
  have hd' := hd.ne'
  have hw' : √(1 - beta ^ 2) / (1 + beta * Real.cos θ) ≠ 0 := (div_pos hr hd).ne'
  rw [show √(1 - beta ^ 2) * Real.sin θ / (1 + beta * Real.cos θ) = √(1 - beta ^ 2) / (1 + beta * Real.cos θ) * Real.sin θ by ring,
    show √(1 - beta ^ 2) ^ 2 / (1 + beta * Real.cos θ) = √(1 - beta ^ 2) / (1 + beta * Real.cos θ) * √(1 - beta ^ 2) by ring]
  generalize hx : √(1 - beta ^ 2) / (1 + beta * Real.cos θ) = x at hw'
  generalize hy : 1 + beta * Real.cos θ = y at hd' hx
  rw [div_eq_iff hd'] at hx
  field_simp
  rw [hq, hx, ← hy]
  ring

/-- The old time as a function of the new time and direction. -/
noncomputable def oldTime (beta : ℝ) (alpha : ℝ → ℝ → ℝ) (u θ φ : ℝ) : ℝ := u * w beta θ + alpha θ φ

/-- `ðu'/k`, as a function of the old time and direction. -/
noncomputable def ee (beta : ℝ) (alpha : ℝ → ℝ → ℝ) : Field := fun u θ φ => (kap beta θ : ℂ) * ((u - alpha θ φ : ℝ) : ℂ) - eth 0 (fun _ θ φ => (alpha θ φ : ℂ)) u θ φ

theorem w_der (θ : ℝ) : HasDerivAt (w beta) (gamma beta * (beta * Real.sin θ)) θ := by
  have h := (((Real.hasDerivAt_cos θ).const_mul beta).const_sub 1).const_mul (gamma beta)
  refine Eq.subst (motive := fun d => HasDerivAt (w beta) d θ) ?_ h
  ring

theorem w_kap (hb : 0 ≤ beta) (hb1 : beta < 1) (θ : ℝ) : gamma beta * (beta * Real.sin θ) = √2 * (w beta θ * kap beta θ) := by
  have h := (den_pos hb hb1 θ).ne'
  have h2 : √2 ≠ 0 := by positivity
  unfold w kap
  field_simp

/-- The derivatives in the new frame. -/
theorem moved_jet (hb : 0 ≤ beta) (hb1 : beta < 1) {alpha : ℝ → ℝ → ℝ} (ha : Smooth fun _ θ φ => (alpha θ φ : ℂ)) (s : Int) {g : Field} {t d : ℂ} {u θ φ : ℝ} (h0 : 0 < θ) (h1 : θ < Real.pi)
    (hg : Jet s g t d (oldTime beta alpha u (thetaOf beta θ) φ) (thetaOf beta θ) φ) :
    Jet s (fun u θ φ => g (oldTime beta alpha u (thetaOf beta θ) φ) (thetaOf beta θ) φ) (w beta (thetaOf beta θ) * t)
      (w beta (thetaOf beta θ) * (d - ee beta alpha (oldTime beta alpha u (thetaOf beta θ) φ) (thetaOf beta θ) φ * t - s * kap beta (thetaOf beta θ) * g (oldTime beta alpha u (thetaOf beta θ) φ) (thetaOf beta θ) φ)) u θ φ := by
  have hp0 := theta_pos hb1 h0 h1
  have hp1 := theta_lt beta θ
  set Θ := thetaOf beta θ with hΘ
  let pr : E →L[ℝ] ℝ := (ContinuousLinearMap.fst ℝ ℝ ℝ).comp (ContinuousLinearMap.snd ℝ ℝ (ℝ × ℝ))
  have hpr : HasFDerivAt (fun p : E => p.2.1) pr (u, θ, φ) := pr.hasFDerivAt
  have hdT : HasFDerivAt (fun p : E => thetaOf beta p.2.1) (w beta Θ • pr) (u, θ, φ) :=
    HasDerivAt.comp_hasFDerivAt (h₂ := thetaOf beta) (u, θ, φ) (theta_der hb hb1 h0 h1) hpr
  have hw : HasFDerivAt (fun p : E => w beta (thetaOf beta p.2.1)) ((gamma beta * (beta * Real.sin Θ)) • (w beta Θ • pr)) (u, θ, φ) :=
    HasDerivAt.comp_hasFDerivAt (h₂ := w beta) (u, θ, φ) (w_der (beta := beta) Θ) hdT
  have hu : HasFDerivAt (fun p : E => p.1) (ContinuousLinearMap.fst ℝ ℝ (ℝ × ℝ)) (u, θ, φ) := (ContinuousLinearMap.fst ℝ ℝ (ℝ × ℝ)).hasFDerivAt
  obtain ⟨Z, hZ, hZ1, hZ2, hZ3⟩ := (Has.comp (U := fun p => p.1) (Th := fun p => thetaOf beta p.2.1) (has_fderiv ha u Θ φ hp0 hp1) hu hdT).ex
  have hα : HasFDerivAt (fun p : E => alpha (thetaOf beta p.2.1) p.2.2) (Complex.reCLM.comp Z) (u, θ, φ) := Complex.reCLM.hasFDerivAt.comp (u, θ, φ) hZ
  have hU : HasFDerivAt (fun p : E => oldTime beta alpha p.1 (thetaOf beta p.2.1) p.2.2) _ (u, θ, φ) := (hu.mul hw).add hα
  obtain ⟨a, b, Hg, rfl⟩ := hg.ex
  have A := has_fderiv ha u Θ φ hp0 hp1
  have hreal : ∀ v : E, ((Z v).re : ℂ) = Z v := by
    intro v
    have h2 : HasFDerivAt (fun p : E => ((alpha (thetaOf beta p.2.1) p.2.2 : ℝ) : ℂ)) (Complex.ofRealCLM.comp (Complex.reCLM.comp Z)) (u, θ, φ) := Complex.ofRealCLM.hasFDerivAt.comp (u, θ, φ) hα
    exact congrArg (fun L : E →L[ℝ] ℂ => L v) (h2.unique hZ)
  have H := Has.comp (U := fun p => oldTime beta alpha p.1 (thetaOf beta p.2.1) p.2.2) (Th := fun p => thetaOf beta p.2.1) Hg hU hdT
  generalize fderiv ℝ (unc fun _ θ φ => (alpha θ φ : ℂ)) (u, Θ, φ) (0, 1, 0) = a1 at A hZ1 hZ2 hZ3
  generalize fderiv ℝ (unc fun _ θ φ => (alpha θ φ : ℂ)) (u, Θ, φ) (0, 0, 1) = a2 at A hZ3
  have h00 : fderiv ℝ (unc fun _ θ φ => (alpha θ φ : ℂ)) (u, Θ, φ) (1, 0, 0) = 0 := A.u.unique (hasDerivAt_const u _)
  rw [h00] at hZ1 hZ2 hZ3
  have p1 : pr (1, 0, 0) = 0 := rfl
  have p2 : pr (0, 1, 0) = 1 := rfl
  have p3 : pr (0, 0, 1) = 0 := rfl
  have z1 : Z (1, 0, 0) = 0 := by rw [hZ1]; simp [p1]
  have z2 : Z (0, 1, 0) = w beta Θ * a1 := by rw [hZ2]; simp [p2]
  have z3 : Z (0, 0, 1) = a2 := by rw [hZ3]; simp [p3]
  have hk := w_kap hb hb1 Θ
  refine ⟨⟨(w beta Θ : ℂ) * (((u * (√2 * (w beta Θ * kap beta Θ)) : ℝ) + a1) * t + a), a2 * t + b, Has.cast H ?_ ?_ ?_, ?_⟩⟩
  · simp [p1, z1, ← hΘ]
  · simp only [add_apply, smul_apply, ContinuousLinearMap.comp_apply, p2, Complex.reCLM_apply, ← hΘ, ← hk]
    push_cast
    rw [hreal, z2]
    simp
    ring
  · simp only [add_apply, smul_apply, ContinuousLinearMap.comp_apply, p3, Complex.reCLM_apply]
    push_cast
    rw [hreal, z3]
    simp
  · have hc := cot_theta hb hb1 h0 h1
    have hsn := sin_theta hb hb1 h0 h1
    rw [← hΘ] at hc hsn
    have hs := (Real.sin_pos_of_pos_of_lt_pi h0 h1).ne'
    have hS := (Real.sin_pos_of_pos_of_lt_pi hp0 hp1).ne'
    have hwp := (w_pos hb hb1 Θ).ne'
    have j : Jet 0 (fun _ θ φ => (alpha θ φ : ℂ)) _ _ u Θ φ := ⟨⟨_, _, A, rfl⟩⟩
    have e1 : ee beta alpha (oldTime beta alpha u Θ φ) Θ φ = kap beta Θ * (u * w beta Θ) - -(a1 + Complex.I / (Real.sin Θ : ℝ) * a2) / (√2 : ℝ) := by
      unfold ee
      have : eth 0 (fun _ θ φ => (alpha θ φ : ℂ)) (oldTime beta alpha u Θ φ) Θ φ = -(a1 + Complex.I / (Real.sin Θ : ℝ) * a2) / (√2 : ℝ) := by
        refine Eq.trans (j.eth : eth 0 (fun _ θ φ => (alpha θ φ : ℂ)) u Θ φ = _) ?_
        push_cast
        ring
      rw [this]
      unfold oldTime
      push_cast
      ring
    have e2 : ((Real.cos θ : ℝ) : ℂ) / (Real.sin θ : ℝ) = w beta Θ * ((Real.cos Θ : ℝ) / (Real.sin Θ : ℝ) - (√2 : ℝ) * kap beta Θ) := by exact_mod_cast congrArg (fun x : ℝ => (x : ℂ)) hc
    have e3 : Complex.I / ((Real.sin θ : ℝ) : ℂ) = w beta Θ * (Complex.I / (Real.sin Θ : ℝ)) := by
      have : ((Real.sin Θ : ℝ) : ℂ) = w beta Θ * (Real.sin θ : ℝ) := by exact_mod_cast congrArg (fun x : ℝ => (x : ℂ)) hsn
      rw [this]
      have h1 : ((w beta Θ : ℝ) : ℂ) ≠ 0 := by exact_mod_cast hwp
      have h2 : ((Real.sin θ : ℝ) : ℂ) ≠ 0 := by exact_mod_cast hs
      field_simp
    rw [e1, e2, e3]
    have h2 : ((√2 : ℝ) : ℂ) ≠ 0 := by exact_mod_cast (by positivity : √2 ≠ 0)
    push_cast
    field_simp
    ring

end Verif.Jets
