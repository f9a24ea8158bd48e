import Verif.Spec.FourMomentum
import Verif.Props.BondiFrame
import Verif.Props.Charges
import Verif.Lemmas.Translation
import Mathlib.MeasureTheory.Function.JacobianOneDim

/-!
# C92: the four-momentum in a boosted and supertranslated frame
-/

namespace Verif.Props.FourMomentum
open Verif.Spec.FourMomentum Verif.Spec.BondiFrame Verif.Spec.Sphere Verif.Spec.Charges Verif.AbdTransform Verif.Jets Verif.Props.BondiFrame ComplexConjugate MeasureTheory

variable {beta : ℝ}

/-! ## Aberration as a change of variables -/

theorem theta_image (beta : ℝ) : thetaOf beta '' Set.Ioo 0 Real.pi = Set.Ioo 0 Real.pi := by
  have hE : Real.exp (-Real.artanh beta) * Real.exp (Real.artanh beta) = 1 := by rw [← Real.exp_add]; simp
  have hpos : ∀ c x : ℝ, 0 < c → x ∈ Set.Ioo 0 Real.pi → 2 * Real.arctan (c * Real.tan (x / 2)) ∈ Set.Ioo 0 Real.pi := by
    intro c x hc hx
    have ht : 0 < Real.tan (x / 2) := Real.tan_pos_of_pos_of_lt_pi_div_two (by linarith [hx.1]) (by linarith [hx.2])
    have h1 : 0 < Real.arctan (c * Real.tan (x / 2)) := Real.arctan_pos.mpr (by positivity)
    have h2 := Real.arctan_lt_pi_div_two (c * Real.tan (x / 2))
    constructor <;> linarith
  ext y
  constructor
  · rintro ⟨x, hx, rfl⟩
    exact hpos _ x (Real.exp_pos _) hx
  · intro hy
    refine ⟨2 * Real.arctan (Real.exp (Real.artanh beta) * Real.tan (y / 2)), hpos _ y (Real.exp_pos _) hy, ?_⟩
    unfold thetaOf
    rw [show ∀ x : ℝ, 2 * x / 2 = x from fun x => by ring, Real.tan_arctan, ← mul_assoc, hE, one_mul, Real.arctan_tan (by linarith [hy.1, Real.pi_pos]) (by linarith [hy.2])]
    ring

theorem theta_inj (beta : ℝ) : Set.InjOn (thetaOf beta) (Set.Ioo 0 Real.pi) := by
  intro x hx y hy h
  unfold thetaOf at h
  have h1 := Real.arctan_injective (mul_left_cancel₀ (two_ne_zero) h)
  have h2 := mul_left_cancel₀ (Real.exp_pos _).ne' h1
  have h3 := Real.tan_inj_of_lt_of_lt_pi_div_two (x := x / 2) (y := y / 2) (by linarith [hx.1, Real.pi_pos]) (by linarith [hx.2]) (by linarith [hy.1, Real.pi_pos]) (by linarith [hy.2]) h2
  linarith

theorem solid_open (F : ℝ → ℝ → ℂ) : solid F = ∫ θ in Set.Ioo 0 Real.pi, ∫ φ in (0 : ℝ)..(2 * Real.pi), F θ φ * Real.sin θ := by
  unfold solid
  rw [intervalIntegral.integral_of_le Real.pi_pos.le, integral_Ioc_eq_integral_Ioo]

theorem solid_congr {F G : ℝ → ℝ → ℂ} (h : ∀ θ φ, 0 < θ → θ < Real.pi → F θ φ = G θ φ) : solid F = solid G := by
  rw [solid_open, solid_open]
  refine setIntegral_congr_fun measurableSet_Ioo fun θ hθ => ?_
  simp only [h _ _ hθ.1 hθ.2]

theorem null_vector (hb : 0 ≤ beta) (hb1 : beta < 1) {θ : ℝ} (h0 : 0 < θ) (h1 : θ < Real.pi) (φ : ℝ) (b : Fin 4) :
    w beta (thetaOf beta θ) * n θ φ b = seen beta (n (thetaOf beta θ) φ) b := by
  have hs := sin_theta hb hb1 h0 h1
  have hw := w_theta hb hb1 h0 h1
  have hr := root_pos hb hb1
  have hq : √(1 - beta ^ 2) ^ 2 = 1 - beta ^ 2 := Real.sq_sqrt (by nlinarith)
  have hd : 0 < 1 + beta * Real.cos θ := by nlinarith [Real.cos_le_one θ, Real.neg_one_le_cos θ]
  have hc := Props.AbdTransform.cos_thetaOf beta θ hb hb1 h0.le h1
  have hz : w beta (thetaOf beta θ) * Real.cos θ = gamma beta * (Real.cos (thetaOf beta θ) - beta) := by
    rw [hw, hc]
    unfold gamma
    field_simp
    linear_combination Real.cos θ * hq
  fin_cases b
  · simp [n, seen, w]
  · show w beta (thetaOf beta θ) * (Real.sin θ * Real.cos φ) = Real.sin (thetaOf beta θ) * Real.cos φ
    rw [hs]; ring
  · show w beta (thetaOf beta θ) * (Real.sin θ * Real.sin φ) = Real.sin (thetaOf beta θ) * Real.sin φ
    rw [hs]; ring
  · show w beta (thetaOf beta θ) * Real.cos θ = gamma beta * (Real.cos (thetaOf beta θ) - beta * 1)
    rw [hz, mul_one]

theorem change (hb : 0 ≤ beta) (hb1 : beta < 1) (h : ℝ → ℝ → ℂ) (b : Fin 4) :
    solid (fun θ φ => (w beta (thetaOf beta θ) : ℂ) ^ 3 * h (thetaOf beta θ) φ * (n θ φ b : ℝ)) = solid fun θ φ => h θ φ * (seen beta (n θ φ) b : ℝ) := by
  rw [solid_open, solid_open]
  have key := integral_image_eq_integral_abs_deriv_smul (s := Set.Ioo 0 Real.pi) (f := thetaOf beta) (f' := fun θ => w beta (thetaOf beta θ)) measurableSet_Ioo
    (fun x hx => (theta_der hb hb1 hx.1 hx.2).hasDerivWithinAt) (theta_inj beta) (fun θ => ∫ φ in (0 : ℝ)..(2 * Real.pi), h θ φ * (seen beta (n θ φ) b : ℝ) * Real.sin θ)
  rw [theta_image] at key
  rw [key]
  refine setIntegral_congr_fun measurableSet_Ioo fun θ hθ => ?_
  simp only [abs_of_pos (w_pos hb hb1 (thetaOf beta θ)), ← null_vector hb hb1 hθ.1 hθ.2, sin_theta hb hb1 hθ.1 hθ.2, Complex.real_smul, ← intervalIntegral.integral_const_mul]
  congr 1
  funext φ
  push_cast
  ring

/-! ## Linearity -/

theorem n_cont (b : Fin 4) : Continuous fun p : ℝ × ℝ => ((n p.1 p.2 b : ℝ) : ℂ) := by
  refine Complex.continuous_ofReal.comp ?_
  fin_cases b <;> simp [n] <;> fun_prop

theorem inner_cont {g : ℝ → ℝ → ℂ} (hg : Continuous fun p : ℝ × ℝ => g p.1 p.2) : Continuous fun θ => ∫ φ in (0 : ℝ)..(2 * Real.pi), g θ φ * (Real.sin θ : ℂ) := by
  refine intervalIntegral.continuous_parametric_intervalIntegral_of_continuous' ?_ _ _
  exact hg.mul (Complex.continuous_ofReal.comp (Real.continuous_sin.comp continuous_fst))

theorem solid_lin {f g : ℝ → ℝ → ℂ} (hf : Continuous fun p : ℝ × ℝ => f p.1 p.2) (hg : Continuous fun p : ℝ × ℝ => g p.1 p.2) (x y : ℂ) :
    solid (fun θ φ => x * f θ φ + y * g θ φ) = x * solid f + y * solid g := by
  unfold solid
  rw [← intervalIntegral.integral_const_mul, ← intervalIntegral.integral_const_mul, ← intervalIntegral.integral_add (((inner_cont hf).intervalIntegrable _ _).const_mul x) (((inner_cont hg).intervalIntegrable _ _).const_mul y)]
  congr 1
  funext θ
  have c : ∀ {g : ℝ → ℝ → ℂ}, (Continuous fun p : ℝ × ℝ => g p.1 p.2) → Continuous fun φ => g θ φ * (Real.sin θ : ℂ) := fun hg => (hg.comp (by fun_prop : Continuous fun φ : ℝ => (θ, φ))).mul continuous_const
  rw [← intervalIntegral.integral_const_mul, ← intervalIntegral.integral_const_mul, ← intervalIntegral.integral_add (((c hf).intervalIntegrable _ _).const_mul x) (((c hg).intervalIntegrable _ _).const_mul y)]
  congr 1
  funext φ
  ring

/-- C92: a mass aspect of conformal weight 3 gives a four-vector. -/
theorem momentum_boost (hb : 0 ≤ beta) (hb1 : beta < 1) {M M' : ℝ → ℝ → ℂ} (hM : Continuous fun p : ℝ × ℝ => M p.1 p.2)
    (h : ∀ θ φ, 0 < θ → θ < Real.pi → M' θ φ = (w beta (thetaOf beta θ) : ℂ) ^ 3 * M (thetaOf beta θ) φ) : momentum M' = seen beta (momentum M) := by
  have c : ∀ b, Continuous fun p : ℝ × ℝ => M p.1 p.2 * ((n p.1 p.2 b : ℝ) : ℂ) := fun b => hM.mul (n_cont b)
  have e : ∀ b, solid (fun θ φ => M' θ φ * (n θ φ b : ℝ)) = solid fun θ φ => M θ φ * (seen beta (n θ φ) b : ℝ) := fun b => by
    rw [← change hb hb1]
    exact solid_congr fun θ φ h0 h1 => by rw [h θ φ h0 h1]
  have l : ∀ x y : ℝ, solid (fun θ φ => M θ φ * ((x * n θ φ 0 + y * n θ φ 3 : ℝ) : ℂ)) = x * solid (fun θ φ => M θ φ * (n θ φ 0 : ℝ)) + y * solid (fun θ φ => M θ φ * (n θ φ 3 : ℝ)) := by
    intro x y
    rw [← solid_lin (c 0) (c 3)]
    refine solid_congr fun θ φ _ _ => ?_
    push_cast
    ring
  funext b
  unfold momentum
  rw [e]
  have l0 := l (gamma beta) (-(gamma beta * beta))
  have l3 := l (-(gamma beta * beta)) (gamma beta)
  fin_cases b
  · rw [solid_congr (G := fun θ φ => M θ φ * ((gamma beta * n θ φ 0 + -(gamma beta * beta) * n θ φ 3 : ℝ) : ℂ)) fun θ φ _ _ => by simp only [seen, Fin.zero_eta, Matrix.cons_val_zero]; push_cast; ring, l0]
    simp only [seen, Fin.zero_eta, Matrix.cons_val_zero, ← Complex.ofReal_neg, Complex.re_ofReal_mul, Complex.add_re]
    ring
  · rfl
  · rfl
  · rw [solid_congr (G := fun θ φ => M θ φ * ((-(gamma beta * beta) * n θ φ 0 + gamma beta * n θ φ 3 : ℝ) : ℂ)) fun θ φ _ _ => by
      rw [show seen beta (n θ φ) ⟨3, by norm_num⟩ = gamma beta * (n θ φ 3 - beta * n θ φ 0) from rfl]; push_cast; ring, l3]
    rw [show ∀ v : Fin 4 → ℝ, seen beta v ⟨3, by norm_num⟩ = gamma beta * (v 3 - beta * v 0) from fun v => rfl]
    simp only [← Complex.ofReal_neg, Complex.re_ofReal_mul, Complex.add_re]
    ring

/-- C92: boosts keep the rest mass. -/
theorem square_seen (hb : 0 ≤ beta) (hb1 : beta < 1) (v : Fin 4 → ℝ) : square (seen beta v) = square v := by
  have hr := root_pos hb hb1
  have hq : gamma beta ^ 2 * (1 - beta ^ 2) = 1 := by
    unfold gamma
    rw [div_pow, Real.sq_sqrt (by nlinarith)]
    have : (1 - beta ^ 2 : ℝ) ≠ 0 := by nlinarith
    field_simp
  unfold square
  rw [show seen beta v 0 = gamma beta * (v 0 - beta * v 3) from rfl, show seen beta v 3 = gamma beta * (v 3 - beta * v 0) from rfl, show seen beta v 1 = v 1 from rfl, show seen beta v 2 = v 2 from rfl]
  linear_combination (v 0 ^ 2 - v 3 ^ 2) * hq

/-! ## Functions given by modes -/

/-- The modes of the four components of `(1, r)`. -/
noncomputable def unit (b : Fin 4) : Int → Int → ℂ := Verif.Supertranslation.trans ((![1, 0, 0, 0] : Fin 4 → ℝ) b) fun i => if b = i.succ then 1 else 0

theorem unit_field (b : Fin 4) {L : Int} (hL : 1 ≤ L) (θ φ : ℝ) : field 0 0 L (unit b) θ φ = (n θ φ b : ℝ) := by
  unfold unit
  rw [Verif.Supertranslation.trans_field hL]
  fin_cases b <;> simp [n, nHat, Fin.ext_iff]

theorem unit_high (b : Fin 4) (ell m : Int) (h : 1 < ell) : unit b ell m = 0 := by
  unfold unit Verif.Supertranslation.trans Verif.Supertranslation.constant
  rw [if_neg (by omega), Verif.Supertranslation.chi_ne 0 ell m (by omega), Verif.Supertranslation.chi_ne 1 ell m (by omega), Verif.Supertranslation.chi_ne 2 ell m (by omega)]
  simp

theorem solid_modes (f : Int → Int → ℂ) {L : Int} (hL : 1 ≤ L) (b : Fin 4) :
    solid (fun θ φ => field 0 0 L f θ φ * (n θ φ b : ℝ)) = conj (unit b 0 0) * f 0 0 + (conj (unit b 1 (-1)) * f 1 (-1) + conj (unit b 1 0) * f 1 0 + conj (unit b 1 1) * f 1 1) := by
  have h := Verif.Props.FluxIntegral.parseval 0 0 L (by simp) (unit b) f
  simp only [unit_field b hL, Complex.conj_ofReal] at h
  rw [solid_congr (G := fun θ φ => (n θ φ b : ℝ) * field 0 0 L f θ φ) fun θ φ _ _ => mul_comm _ _, h]
  unfold Verif.Spec.AngMom.inner
  have hsub : Finset.Icc (0 : Int) 1 ⊆ Finset.Icc 0 L := Finset.Icc_subset_Icc_right hL
  rw [← Finset.sum_subset hsub fun ell h1 h2 => by
    rw [Finset.mem_Icc] at h1 h2
    exact Finset.sum_eq_zero fun m _ => by rw [unit_high b ell m (by omega)]; simp]
  rw [show Finset.Icc (0 : Int) 1 = {0, 1} from rfl, Finset.sum_pair (by norm_num), show Finset.Icc (-0 : Int) 0 = {0} from rfl, show Finset.Icc (-1 : Int) 1 = {-1, 0, 1} from rfl, Finset.sum_singleton,
    Finset.sum_insert (by decide), Finset.sum_pair (by decide), add_assoc]

/-- Functions without modes up to `ell = 1` have no four-momentum. -/
theorem no_momentum {f : Int → Int → ℂ} (hf : ∀ ell m, 0 ≤ ell → ell ≤ 1 → f ell m = 0) (L : Int) (b : Fin 4) : solid (fun θ φ => field 0 0 L f θ φ * (n θ φ b : ℝ)) = 0 := by
  by_cases hL : 1 ≤ L
  · rw [solid_modes f hL, hf 0 0 (by norm_num) (by norm_num), hf 1 0 (by norm_num) (by norm_num), hf 1 1 (by norm_num) (by norm_num), hf 1 (-1) (by norm_num) (by norm_num)]
    simp
  · have : ∀ θ φ, field 0 0 L f θ φ = 0 := fun θ φ => Finset.sum_eq_zero fun ell h => Finset.sum_eq_zero fun m _ => by
      rw [Finset.mem_Icc] at h
      rw [hf ell m h.1 (by omega), zero_mul]
    simp [this, solid]

/-- C92: what `charge_vector_from_aspect` computes from modes is this integral of the function with these modes. -/
theorem momentum_modes (f : Int → Int → ℂ) {L : Int} (hL : 1 ≤ L) : momentum (field 0 0 L f) = fun b => -vector f b := by
  funext b
  obtain ⟨v0, v1, v2, v3⟩ := Verif.Props.Charges.vector_eq f
  have hpi := Real.pi_pos
  have r2 : 1 / (4 * Real.pi) * √(2 * Real.pi / 3) = 1 / √6 / √(4 * Real.pi) := by
    refine (sq_eq_sq₀ (by positivity) (by positivity)).1 ?_
    rw [mul_pow, div_pow, div_pow, div_pow, Real.sq_sqrt (by positivity), Real.sq_sqrt (by positivity), Real.sq_sqrt (by positivity)]
    field_simp
    norm_num
  have r3 : 1 / (4 * Real.pi) * √(4 * Real.pi / 3) = 1 / √3 / √(4 * Real.pi) := by
    refine (sq_eq_sq₀ (by positivity) (by positivity)).1 ?_
    rw [mul_pow, div_pow, div_pow, div_pow, Real.sq_sqrt (by positivity), Real.sq_sqrt (by positivity), Real.sq_sqrt (by positivity)]
    field_simp
  have r0 : 1 / (4 * Real.pi) * √(4 * Real.pi) = 1 / √(4 * Real.pi) := by
    have := Real.mul_self_sqrt (show 0 ≤ 4 * Real.pi by positivity)
    have h : √(4 * Real.pi) ≠ 0 := by positivity
    field_simp
    linear_combination this
  unfold momentum
  rw [solid_modes f hL, ← Complex.ofReal_neg, Complex.re_ofReal_mul]
  unfold unit Verif.Supertranslation.trans Verif.Supertranslation.constant Verif.Spec.Boost.chi
  generalize √(4 * Real.pi) = p at *
  generalize √(2 * Real.pi / 3) = q at *
  generalize √(4 * Real.pi / 3) = r at *
  fin_cases b
  · rw [show vector f ⟨0, by norm_num⟩ = _ from v0]
    simp [Fin.ext_iff]
    linear_combination ((f 0 0).re) * r0
  · rw [show vector f ⟨1, by norm_num⟩ = _ from v1]
    simp [Fin.ext_iff]
    linear_combination (((f 1 (-1)).re - (f 1 1).re)) * r2
  · rw [show vector f ⟨2, by norm_num⟩ = _ from v2]
    simp [Fin.ext_iff]
    linear_combination (((f 1 (-1)).im + (f 1 1).im)) * r2
  · rw [show vector f ⟨3, by norm_num⟩ = _ from v3]
    simp [Fin.ext_iff]
    linear_combination ((f 1 0).re) * r3

/-- C92: the four-momentum that the code computes is the momentum of the function `ψ₂ + σ ∂σ̄/∂u`. -/
theorem code_momentum (mul : Int → Int → Charges.Modes → Charges.Modes → Charges.Modes) (dflt : Int) (d : Charges.Abd) {L : Int} (hL : 1 ≤ L) :
    Charges.bondiFourMomentum mul dflt d = .ok (List.ofFn (momentum (field 0 0 L fun ell m => d.psi2 ell m + mul 2 (-2) d.sigma (Charges.bar 2 d.sigmaDot) ell m))) := by
  rw [Verif.Props.Charges.four_momentum_spec, momentum_modes _ hL]

/-! ## The theorems -/

variable {F : Fin 6 → Spec.BondiFrame.Field} {L : Int} {a : Int → Int → ℂ}

theorem field_cont (s : Int) (f : Int → Int → ℂ) : Continuous fun p : ℝ × ℝ => field s 0 L f p.1 p.2 := Verif.Sphere.fieldR_cont s 0 L f

theorem quartic (hr : RealModes a) (L : Int) (u θ φ : ℝ) (h0 : 0 < θ) (h1 : θ < Real.pi) :
    eth (-1) (eth (-2) (B (ofModes L a))) u θ φ = field 0 0 L (Charges.ethGHP (-1) (Charges.ethGHP (-2) (Charges.bar 2 (Charges.ethGHP 1 (Charges.ethGHP 0 a))))) θ φ := by
  have e0 : ∀ u θ φ, 0 < θ → θ < Real.pi → eth 0 (A (ofModes L a)) u θ φ = field 1 0 L (Charges.ethGHP 0 a) θ φ := fun u θ φ h0 h1 => eth_modes (by norm_num) (fun u θ φ _ _ => ofModes_eq hr L u θ φ) u θ φ h0 h1
  have e1 : ∀ u θ φ, 0 < θ → θ < Real.pi → eth 1 (eth 0 (A (ofModes L a))) u θ φ = field 2 0 L (Charges.ethGHP 1 (Charges.ethGHP 0 a)) θ φ := fun u θ φ h0 h1 => eth_modes (by norm_num) e0 u θ φ h0 h1
  have e2 : ∀ u θ φ, 0 < θ → θ < Real.pi → B (ofModes L a) u θ φ = field (-2) 0 L (Charges.bar 2 (Charges.ethGHP 1 (Charges.ethGHP 0 a))) θ φ := by
    intro u θ φ h0 h1
    rw [← field_conj, ← e1 u θ φ h0 h1]
    rfl
  have e3 : ∀ u θ φ, 0 < θ → θ < Real.pi → eth (-2) (B (ofModes L a)) u θ φ = field (-1) 0 L (Charges.ethGHP (-2) (Charges.bar 2 (Charges.ethGHP 1 (Charges.ethGHP 0 a)))) θ φ :=
    fun u θ φ h0 h1 => eth_modes (by norm_num) e2 u θ φ h0 h1
  exact eth_modes (by norm_num) e3 u θ φ h0 h1

/-- C92: the four-momentum of the (Moreschi) mass aspect at the time `u'` of the new frame is that on the cut `u = u'/k + α` of the old frame, in the components of the new frame. -/
theorem momentum_moved (hb : 0 ≤ beta) (hb1 : beta < 1) (hr : RealModes a) (hF : Bondi F) (hs : Smooth (F 5)) {m : Spec.BondiFrame.Field} (hm : Continuous fun p : ℝ × ℝ × ℝ => m p.1 p.2.1 p.2.2)
    (h : ∀ u θ φ, 0 < θ → θ < Real.pi → massAspect (F 2) (F 5) u θ φ = m u θ φ) (u : ℝ) :
    momentum (massAspect (moved beta (ofModes L a) F 2) (moved beta (ofModes L a) F 5) u) =
      seen beta (momentum fun θ φ => massAspect (F 2) (F 5) (u / factor beta θ + ofModes L a θ φ) θ φ) := by
  have hα : Continuous fun p : ℝ × ℝ => ofModes L a p.1 p.2 := Complex.continuous_re.comp (field_cont 0 a)
  have hold : ∀ θ φ, u / factor beta θ + ofModes L a θ φ = oldTime beta (ofModes L a) u θ φ := fun θ φ => by
    unfold oldTime
    rw [factor_eq, div_div_eq_mul_div, div_one]
  have hw : Continuous (w beta) := continuous_const.mul (continuous_const.sub (continuous_const.mul Real.continuous_cos))
  have hc : Continuous fun p : ℝ × ℝ => m (oldTime beta (ofModes L a) u p.1 p.2) p.1 p.2 := by
    have : Continuous fun p : ℝ × ℝ => (oldTime beta (ofModes L a) u p.1 p.2, p.1, p.2) := ((continuous_const.mul (hw.comp continuous_fst)).add hα).prodMk continuous_id
    exact hm.comp this
  obtain ⟨q, hq⟩ : ∃ q, q = Charges.ethGHP (-1) (Charges.ethGHP (-2) (Charges.bar 2 (Charges.ethGHP 1 (Charges.ethGHP 0 a)))) := ⟨_, rfl⟩
  have hq0 : ∀ ell m, 0 ≤ ell → ell ≤ 1 → q ell m = 0 := fun ell m h0 h1 => by rw [hq]; exact Verif.Props.Charges.eth_eth_low _ ell m h0 h1
  have hfc := field_cont (L := L) 0 q
  rw [momentum_boost hb hb1 (M := fun θ φ => m (oldTime beta (ofModes L a) u θ φ) θ φ - field 0 0 L q θ φ) (hc.sub hfc) fun θ φ h0 h1 => by
    rw [mass_aspect hb hb1 (ofModes_smooth hr L) hF hs u θ φ h0 h1, h _ _ _ (theta_pos hb1 h0 h1) (theta_lt beta θ), quartic hr L _ _ _ (theta_pos hb1 h0 h1) (theta_lt beta θ), hq]]
  congr 1
  funext b
  unfold momentum
  congr 2
  have := solid_lin (f := fun θ φ => m (oldTime beta (ofModes L a) u θ φ) θ φ * (n θ φ b : ℝ)) (g := fun θ φ => field 0 0 L q θ φ * (n θ φ b : ℝ)) (hc.mul (n_cont b)) (hfc.mul (n_cont b)) 1 (-1)
  rw [no_momentum hq0 L b] at this
  rw [solid_congr (G := fun θ φ => 1 * (m (oldTime beta (ofModes L a) u θ φ) θ φ * (n θ φ b : ℝ)) + -1 * (field 0 0 L q θ φ * (n θ φ b : ℝ))) fun θ φ _ _ => by ring, this, one_mul, mul_zero, add_zero]
  exact solid_congr fun θ φ h0 h1 => by simp only [h _ _ _ h0 h1, hold]

theorem eth_zero (s : Int) {f : Spec.BondiFrame.Field} (h : ∀ u θ φ, 0 < θ → θ < Real.pi → f u θ φ = 0) (u θ φ : ℝ) (h0 : 0 < θ) (h1 : θ < Real.pi) : eth s f u θ φ = 0 := by
  rw [((smooth_jet s (Smooth_const 0) u θ φ h0 h1).congr (g := f) h0 h1 h).eth]
  simp [Spec.BondiFrame.eth, Spec.SphereOps.ethOp]

/-- C92: for data without news the code's four-momentum `-(1/4π) ∫ Re(ψ₂ + σ ∂σ̄/∂u) (1, r) dΩ` is the same at all times, in the new frame it is the same vector in the components of this frame, and its square (the square
of the rest mass) is the same. -/
theorem four_momentum (hb : 0 ≤ beta) (hb1 : beta < 1) (hr : RealModes a) (hF : Bondi F) (hs : ∀ c, Smooth (F c)) (hc : ∀ u, Continuous fun p : ℝ × ℝ => F 2 u p.1 p.2)
    (hn : ∀ u θ φ, 0 < θ → θ < Real.pi → dt (bar (F 5)) u θ φ = 0) (P P' : ℝ → Fin 4 → ℝ) (hP : ∀ u, P u = momentum fun θ φ => F 2 u θ φ + F 5 u θ φ * dt (bar (F 5)) u θ φ)
    (hP' : ∀ u, P' u = momentum fun θ φ => moved beta (ofModes L a) F 2 u θ φ + moved beta (ofModes L a) F 5 u θ φ * dt (bar (moved beta (ofModes L a) F 5)) u θ φ) (u u' : ℝ) :
    P' u' = seen beta (P u) ∧ square (P' u') = square (P u) := by
  have p3 : ∀ u θ φ, 0 < θ → θ < Real.pi → F 3 u θ φ = 0 := fun u θ φ h0 h1 => by rw [hF.c3 u θ φ h0 h1, eth_zero (-2) hn u θ φ h0 h1, neg_zero]
  have p4 : ∀ u θ φ, 0 < θ → θ < Real.pi → F 4 u θ φ = 0 := fun u θ φ h0 h1 => by
    rw [hF.c4 u θ φ h0 h1, dt]
    simp only [hn _ _ _ h0 h1, deriv_const, neg_zero]
  have p2 : ∀ x y θ φ, 0 < θ → θ < Real.pi → F 2 x θ φ = F 2 y θ φ := by
    intro x y θ φ h0 h1
    have hd : ∀ v, HasDerivAt (fun x => F 2 x θ φ) 0 v := by
      intro v
      have hz : dt (F 2) v θ φ = 0 := by rw [hF.b2 v θ φ h0 h1, eth_zero (-1) p3 v θ φ h0 h1, p4 v θ φ h0 h1]; ring
      rw [← hz]
      refine DifferentiableAt.hasDerivAt ?_
      have h3 : DifferentiableAt ℝ (fun p : ℝ × ℝ × ℝ => F 2 p.1 p.2.1 p.2.2) (v, θ, φ) := (hs 2 v θ φ h0 h1).differentiableAt (by simp)
      exact h3.comp (f := fun x : ℝ => (x, θ, φ)) v (by fun_prop)
    exact is_const_of_deriv_eq_zero (fun v => (hd v).differentiableAt) (fun v => (hd v).deriv) x y
  have key : P' u' = seen beta (P u) := by
    rw [hP, hP']
    have e1 : momentum (fun θ φ => F 2 u θ φ + F 5 u θ φ * dt (bar (F 5)) u θ φ) = momentum fun θ φ => F 2 u θ φ := by
      funext b
      unfold momentum
      rw [solid_congr (G := fun θ φ => F 2 u θ φ * (n θ φ b : ℝ)) fun θ φ h0 h1 => by simp only [hn u θ φ h0 h1, mul_zero, add_zero]]
    rw [e1]
    refine momentum_boost hb hb1 (hc u) fun θ φ h0 h1 => ?_
    have hp0 := theta_pos hb1 h0 h1
    have hp1 := theta_lt beta θ
    rw [(bar_jet hb hb1 (ofModes_smooth hr L) (hs 5) u' θ φ h0 h1).1, hn _ _ _ hp0 hp1, mul_zero, mul_zero, add_zero, moved_eq]
    simp only [G2, p3 _ _ _ hp0 hp1, p4 _ _ _ hp0 hp1, p2 _ u _ _ hp0 hp1]
    ring
  exact ⟨key, by rw [key, square_seen hb hb1]⟩

/-- The field of a mass at rest: the momentum is `(M, 0, 0, 0)`, in the boosted frame `(γM, 0, 0, -γβM)`. -/
theorem mass_momentum (M : ℝ) (u : ℝ) : momentum (fun θ φ => mass M 2 u θ φ + mass M 5 u θ φ * dt (bar (mass M 5)) u θ φ) = ![M, 0, 0, 0] := by
  have h : (fun θ φ => mass M 2 u θ φ + mass M 5 u θ φ * dt (bar (mass M 5)) u θ φ) = field 0 0 1 (Verif.Supertranslation.constant (-M)) := by
    funext θ φ
    rw [Verif.Supertranslation.constant_field (by norm_num)]
    simp [mass]
  have hpi : √(4 * Real.pi) ≠ 0 := by have := Real.pi_pos; positivity
  rw [h, momentum_modes _ le_rfl]
  obtain ⟨v0, v1, v2, v3⟩ := Verif.Props.Charges.vector_eq (Verif.Supertranslation.constant (-M))
  funext b
  fin_cases b
  · show -vector _ 0 = M
    rw [v0]
    simp only [Verif.Supertranslation.constant, if_true, Complex.ofReal_re]
    field_simp
  · show -vector _ 1 = 0
    rw [v1]
    simp [Verif.Supertranslation.constant]
  · show -vector _ 2 = 0
    rw [v2]
    simp [Verif.Supertranslation.constant]
  · show -vector _ 3 = 0
    rw [v3]
    simp [Verif.Supertranslation.constant]

example (M u' : ℝ) (hr : RealModes a) : momentum (fun θ φ => moved (3 / 5) (ofModes L a) (mass M) 2 u' θ φ + moved (3 / 5) (ofModes L a) (mass M) 5 u' θ φ * dt (bar (moved (3 / 5) (ofModes L a) (mass M) 5)) u' θ φ) =
    ![5 / 4 * M, 0, 0, -(3 / 4 * M)] := by
  have hz : bar (mass M 5) = fun _ _ _ => 0 := by
    funext u θ φ
    simp [Spec.BondiFrame.bar, mass]
  have h := (four_momentum (beta := 3 / 5) (L := L) (F := mass M) (by norm_num) (by norm_num) hr (mass_bondi M).1 (mass_bondi M).2 (fun u => continuous_const) (fun u θ φ _ _ => by rw [hz]; simp [dt])
    _ _ (fun _ => rfl) (fun _ => rfl) 0 u').1
  rw [h, mass_momentum]
  have hg : gamma (3 / 5) = 5 / 4 := by
    unfold gamma
    rw [show (1 - (3 / 5) ^ 2 : ℝ) = (4 / 5) ^ 2 by norm_num, Real.sqrt_sq (by norm_num)]
    norm_num
  funext b
  fin_cases b <;> simp [seen, hg] <;> ring

/-- The hypotheses of `momentum_moved` hold for it. -/
example (M u' : ℝ) (hr : RealModes a) : momentum (massAspect (moved (3 / 5) (ofModes L a) (mass M) 2) (moved (3 / 5) (ofModes L a) (mass M) 5) u') =
    seen (3 / 5) (momentum fun θ φ => massAspect (mass M 2) (mass M 5) (u' / factor (3 / 5) θ + ofModes L a θ φ) θ φ) :=
  momentum_moved (by norm_num) (by norm_num) hr (mass_bondi M).1 ((mass_bondi M).2 5) (m := fun _ _ _ => -(M : ℂ)) continuous_const
    (fun u θ φ _ _ => by simp [massAspect, mass, dt, Spec.BondiFrame.bar, Spec.BondiFrame.eth, Spec.SphereOps.ethOp]) u'

end Verif.Props.FourMomentum
