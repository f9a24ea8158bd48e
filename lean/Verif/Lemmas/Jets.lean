import Verif.Spec.BondiFrame
import Verif.Lemmas.BmsNull
import Mathlib.Analysis.Calculus.FDeriv.Mul
import Mathlib.Analysis.Calculus.FDeriv.Prod
import Mathlib.Analysis.Calculus.FDeriv.Symmetric
import Mathlib.Analysis.Calculus.ContDiff.Operations
import Mathlib.Analysis.Complex.Basic
import Mathlib.Analysis.SpecialFunctions.Trigonometric.Deriv

/-!
# First derivatives of functions of time and direction
-/

namespace Verif.Jets
open Verif.Spec.BondiFrame Verif.Spec.SphereOps Verif.AbdTransform

abbrev E := ℝ × ℝ × ℝ

def unc (f : Field) : E → ℂ := fun p => f p.1 p.2.1 p.2.2

/-- The three partial derivatives. -/
structure Has (f : Field) (t a b : ℂ) (u θ φ : ℝ) : Prop where
  ex : ∃ L : E →L[ℝ] ℂ, HasFDerivAt (unc f) L (u, θ, φ) ∧ L (1, 0, 0) = t ∧ L (0, 1, 0) = a ∧ L (0, 0, 1) = b

theorem Has.u {f : Field} {t a b : ℂ} {u θ φ : ℝ} (h : Has f t a b u θ φ) : HasDerivAt (fun x => f x θ φ) t u := by
  obtain ⟨L, hL, rfl, -, -⟩ := h.ex
  have h1 : HasDerivAt (fun x : ℝ => ((x, θ, φ) : E)) (1, 0, 0) u := (hasDerivAt_id u).prodMk ((hasDerivAt_const u θ).prodMk (hasDerivAt_const u φ))
  exact hL.comp_hasDerivAt u h1

theorem Has.th {f : Field} {t a b : ℂ} {u θ φ : ℝ} (h : Has f t a b u θ φ) : HasDerivAt (fun x => f u x φ) a θ := by
  obtain ⟨L, hL, -, rfl, -⟩ := h.ex
  have h1 : HasDerivAt (fun x : ℝ => ((u, x, φ) : E)) (0, 1, 0) θ := (hasDerivAt_const θ u).prodMk ((hasDerivAt_id θ).prodMk (hasDerivAt_const θ φ))
  exact hL.comp_hasDerivAt θ h1

theorem Has.ph {f : Field} {t a b : ℂ} {u θ φ : ℝ} (h : Has f t a b u θ φ) : HasDerivAt (fun x => f u θ x) b φ := by
  obtain ⟨L, hL, -, -, rfl⟩ := h.ex
  have h1 : HasDerivAt (fun x : ℝ => ((u, θ, x) : E)) (0, 0, 1) φ := (hasDerivAt_const φ u).prodMk ((hasDerivAt_const φ θ).prodMk (hasDerivAt_id φ))
  exact hL.comp_hasDerivAt φ h1

theorem Has.dt {f : Field} {t a b : ℂ} {u θ φ : ℝ} (h : Has f t a b u θ φ) : dt f u θ φ = t := h.u.deriv

theorem Has.mul {f g : Field} {t a b t' a' b' : ℂ} {u θ φ : ℝ} (hf : Has f t a b u θ φ) (hg : Has g t' a' b' u θ φ) :
    Has (fun u θ φ => f u θ φ * g u θ φ) (t * g u θ φ + f u θ φ * t') (a * g u θ φ + f u θ φ * a') (b * g u θ φ + f u θ φ * b') u θ φ := by
  obtain ⟨L, hL, rfl, rfl, rfl⟩ := hf.ex
  obtain ⟨M, hM, rfl, rfl, rfl⟩ := hg.ex
  refine ⟨⟨_, hL.mul hM, ?_, ?_, ?_⟩⟩ <;> simp [unc] <;> ring

theorem Has.add {f g : Field} {t a b t' a' b' : ℂ} {u θ φ : ℝ} (hf : Has f t a b u θ φ) (hg : Has g t' a' b' u θ φ) :
    Has (fun u θ φ => f u θ φ + g u θ φ) (t + t') (a + a') (b + b') u θ φ := by
  obtain ⟨L, hL, rfl, rfl, rfl⟩ := hf.ex
  obtain ⟨M, hM, rfl, rfl, rfl⟩ := hg.ex
  exact ⟨⟨_, hL.add hM, rfl, rfl, rfl⟩⟩

theorem Has.const (c : ℂ) (u θ φ : ℝ) : Has (fun _ _ _ => c) 0 0 0 u θ φ := ⟨⟨0, hasFDerivAt_const c _, rfl, rfl, rfl⟩⟩

theorem Has.cast {f : Field} {t a b t' a' b' : ℂ} {u θ φ : ℝ} (h : Has f t a b u θ φ) (e1 : t = t') (e2 : a = a') (e3 : b = b') : Has f t' a' b' u θ φ := by subst e1 e2 e3; exact h

/-- Functions that agree for `0 < θ < π`. -/
theorem Has.congr {f g : Field} {t a b : ℂ} {u θ φ : ℝ} (hf : Has f t a b u θ φ) (h0 : 0 < θ) (h1 : θ < Real.pi)
    (h : ∀ u θ φ, 0 < θ → θ < Real.pi → g u θ φ = f u θ φ) : Has g t a b u θ φ := by
  obtain ⟨L, hL, e⟩ := hf.ex
  refine ⟨⟨L, hL.congr_of_eventuallyEq ?_, e⟩⟩
  have hc : Continuous fun p : E => p.2.1 := continuous_fst.comp continuous_snd
  have : ∀ᶠ p : E in nhds (u, θ, φ), p.2.1 ∈ Set.Ioo 0 Real.pi := hc.continuousAt.eventually_mem (Ioo_mem_nhds h0 h1)
  filter_upwards [this] with p hp
  exact h p.1 p.2.1 p.2.2 hp.1 hp.2

/-- `∂/∂u` is `t` and `ð` is `d`, for spin weight `s`. -/
structure Jet (s : Int) (f : Field) (t d : ℂ) (u θ φ : ℝ) : Prop where
  ex : ∃ a b, Has f t a b u θ φ ∧ d = -(a + Complex.I / (Real.sin θ : ℝ) * b - s * ((Real.cos θ : ℝ) / (Real.sin θ : ℝ)) * f u θ φ) / (√2 : ℝ)

theorem Jet.dt {s : Int} {f : Field} {t d : ℂ} {u θ φ : ℝ} (h : Jet s f t d u θ φ) : dt f u θ φ = t := by
  obtain ⟨a, b, H, -⟩ := h.ex
  exact H.dt

theorem Jet.eth {s : Int} {f : Field} {t d : ℂ} {u θ φ : ℝ} (h : Jet s f t d u θ φ) : eth s f u θ φ = d := by
  obtain ⟨a, b, H, rfl⟩ := h.ex
  unfold Spec.BondiFrame.eth ethOp
  rw [H.th.deriv, H.ph.deriv]

theorem Jet.mul {s s' : Int} {f g : Field} {t d t' d' : ℂ} {u θ φ : ℝ} (hf : Jet s f t d u θ φ) (hg : Jet s' g t' d' u θ φ) :
    Jet (s + s') (fun u θ φ => f u θ φ * g u θ φ) (t * g u θ φ + f u θ φ * t') (d * g u θ φ + f u θ φ * d') u θ φ := by
  obtain ⟨a, b, Hf, rfl⟩ := hf.ex
  obtain ⟨a', b', Hg, rfl⟩ := hg.ex
  refine ⟨⟨_, _, Hf.mul Hg, ?_⟩⟩
  push_cast
  ring

theorem Jet.add {s : Int} {f g : Field} {t d t' d' : ℂ} {u θ φ : ℝ} (hf : Jet s f t d u θ φ) (hg : Jet s g t' d' u θ φ) :
    Jet s (fun u θ φ => f u θ φ + g u θ φ) (t + t') (d + d') u θ φ := by
  obtain ⟨a, b, Hf, rfl⟩ := hf.ex
  obtain ⟨a', b', Hg, rfl⟩ := hg.ex
  refine ⟨⟨_, _, Hf.add Hg, ?_⟩⟩
  ring

theorem Jet.const (c : ℂ) (u θ φ : ℝ) : Jet 0 (fun _ _ _ => c) 0 0 u θ φ := ⟨⟨0, 0, Has.const c u θ φ, by simp⟩⟩

theorem Jet.smul {s : Int} {f : Field} {t d : ℂ} {u θ φ : ℝ} (c : ℂ) (hf : Jet s f t d u θ φ) : Jet s (fun u θ φ => c * f u θ φ) (c * t) (c * d) u θ φ := by
  have h := (Jet.const c u θ φ).mul hf
  rw [zero_add] at h
  simpa only [zero_mul, zero_add] using h

theorem Jet.congr {s : Int} {f g : Field} {t d : ℂ} {u θ φ : ℝ} (hf : Jet s f t d u θ φ) (h0 : 0 < θ) (h1 : θ < Real.pi)
    (h : ∀ u θ φ, 0 < θ → θ < Real.pi → g u θ φ = f u θ φ) : Jet s g t d u θ φ := by
  obtain ⟨a, b, Hf, rfl⟩ := hf.ex
  refine ⟨⟨a, b, Hf.congr h0 h1 h, ?_⟩⟩
  rw [h u θ φ h0 h1]

theorem Jet.cast {s : Int} {f : Field} {t d t' d' : ℂ} {u θ φ : ℝ} (hf : Jet s f t d u θ φ) (ht : t' = t) (hd : d' = d) : Jet s f t' d' u θ φ := by rw [ht, hd]; exact hf

theorem Jet.spin {s s' : Int} {f : Field} {t d : ℂ} {u θ φ : ℝ} (h : Jet s f t d u θ φ) (e : s = s') : Jet s' f t d u θ φ := e ▸ h

/-- A smooth function has a first derivative. -/
theorem smooth_jet (s : Int) {f : Field} (hf : Smooth f) (u θ φ : ℝ) (h0 : 0 < θ) (h1 : θ < Real.pi) : Jet s f (dt f u θ φ) (eth s f u θ φ) u θ φ := by
  have hd : DifferentiableAt ℝ (unc f) (u, θ, φ) := (hf u θ φ h0 h1).differentiableAt (by simp)
  have h : Has f _ _ _ u θ φ := ⟨⟨_, hd.hasFDerivAt, rfl, rfl, rfl⟩⟩
  have j : Jet s f _ _ u θ φ := ⟨⟨_, _, h, rfl⟩⟩
  rw [j.dt, j.eth]
  exact j

/-! ## Second derivatives -/

open scoped ContDiff

theorem has_fderiv {f : Field} (hf : Smooth f) (u θ φ : ℝ) (h0 : 0 < θ) (h1 : θ < Real.pi) :
    Has f (fderiv ℝ (unc f) (u, θ, φ) (1, 0, 0)) (fderiv ℝ (unc f) (u, θ, φ) (0, 1, 0)) (fderiv ℝ (unc f) (u, θ, φ) (0, 0, 1)) u θ φ :=
  ⟨⟨_, ((hf u θ φ h0 h1).differentiableAt (by simp)).hasFDerivAt, rfl, rfl, rfl⟩⟩

/-- A derivative in a fixed direction, as a field. -/
noncomputable def pd (v : E) (f : Field) : Field := fun u θ φ => fderiv ℝ (unc f) (u, θ, φ) v

theorem smooth_pd (v : E) {f : Field} (hf : Smooth f) : Smooth (pd v f) := fun u θ φ h0 h1 =>
  ((hf u θ φ h0 h1).fderiv_right (m := ∞) (by simp)).clm_apply contDiffAt_const

theorem pd_comm (v w : E) {f : Field} (hf : Smooth f) (u θ φ : ℝ) (h0 : 0 < θ) (h1 : θ < Real.pi) : pd v (pd w f) u θ φ = pd w (pd v f) u θ φ := by
  have hd : DifferentiableAt ℝ (fderiv ℝ (unc f)) (u, θ, φ) := ((hf u θ φ h0 h1).fderiv_right (m := ∞) (by simp)).differentiableAt (by simp)
  have key : ∀ v w : E, pd v (pd w f) u θ φ = fderiv ℝ (fderiv ℝ (unc f)) (u, θ, φ) v w := by
    intro v w
    show fderiv ℝ (fun p : E => fderiv ℝ (unc f) p w) (u, θ, φ) v = _
    rw [fderiv_clm_apply hd (differentiableAt_const w)]
    simp
  rw [key, key]
  exact (ContDiffAt.isSymmSndFDerivAt (hf u θ φ h0 h1) (by simp only [minSmoothness_of_isRCLikeNormedField]; exact WithTop.coe_le_coe.2 le_top)) v w

theorem smooth_congr {f g : Field} (hf : Smooth f) (h : ∀ u θ φ, 0 < θ → θ < Real.pi → g u θ φ = f u θ φ) : Smooth g := by
  intro u θ φ h0 h1
  refine (hf u θ φ h0 h1).congr_of_eventuallyEq ?_
  have hc : Continuous fun p : E => p.2.1 := continuous_fst.comp continuous_snd
  have : ∀ᶠ p : E in nhds (u, θ, φ), p.2.1 ∈ Set.Ioo 0 Real.pi := hc.continuousAt.eventually_mem (Ioo_mem_nhds h0 h1)
  filter_upwards [this] with p hp
  exact h p.1 p.2.1 p.2.2 hp.1 hp.2

theorem dt_pd {f : Field} (hf : Smooth f) (u θ φ : ℝ) (h0 : 0 < θ) (h1 : θ < Real.pi) : dt f u θ φ = pd (1, 0, 0) f u θ φ := (has_fderiv hf u θ φ h0 h1).dt

theorem smooth_dt {f : Field} (hf : Smooth f) : Smooth (dt f) := smooth_congr (smooth_pd (1, 0, 0) hf) fun u θ φ h0 h1 => dt_pd hf u θ φ h0 h1

theorem Smooth_mul {f g : Field} (hf : Smooth f) (hg : Smooth g) : Smooth fun u θ φ => f u θ φ * g u θ φ := fun u θ φ h0 h1 => (hf u θ φ h0 h1).mul (hg u θ φ h0 h1)
theorem Smooth_add {f g : Field} (hf : Smooth f) (hg : Smooth g) : Smooth fun u θ φ => f u θ φ + g u θ φ := fun u θ φ h0 h1 => (hf u θ φ h0 h1).add (hg u θ φ h0 h1)
theorem Smooth_const (c : ℂ) : Smooth fun _ _ _ => c := fun _ _ _ _ _ => contDiffAt_const

theorem Smooth_real {g : ℝ → ℝ} (hg : ∀ θ, 0 < θ → θ < Real.pi → ContDiffAt ℝ ∞ g θ) : Smooth fun _ θ _ => (g θ : ℂ) := by
  intro u θ φ h0 h1
  have h2 : ContDiffAt ℝ ∞ (fun p : E => p.2.1) (u, θ, φ) := (contDiff_fst.comp contDiff_snd).contDiffAt
  have h3 : ContDiffAt ℝ ∞ (fun p : E => g p.2.1) (u, θ, φ) := ContDiffAt.comp (u, θ, φ) (hg θ h0 h1) h2
  exact (Complex.ofRealCLM.contDiff.contDiffAt).comp (u, θ, φ) h3

theorem smooth_cos : Smooth fun _ θ _ => ((Real.cos θ : ℝ) : ℂ) := Smooth_real fun _ _ _ => Real.contDiff_cos.contDiffAt
theorem smooth_sin : Smooth fun _ θ _ => ((Real.sin θ : ℝ) : ℂ) := Smooth_real fun _ _ _ => Real.contDiff_sin.contDiffAt
theorem smooth_csc : Smooth fun _ θ _ => (((Real.sin θ)⁻¹ : ℝ) : ℂ) :=
  Smooth_real fun _ h0 h1 => Real.contDiff_sin.contDiffAt.inv (Real.sin_pos_of_pos_of_lt_pi h0 h1).ne'

theorem Smooth_bar {f : Field} (hf : Smooth f) : Smooth (bar f) := fun u θ φ h0 h1 =>
  (Complex.conjCLE.contDiff.contDiffAt).comp (u, θ, φ) (hf u θ φ h0 h1)

theorem eth_pd (s : Int) {f : Field} (hf : Smooth f) (u θ φ : ℝ) (h0 : 0 < θ) (h1 : θ < Real.pi) :
    eth s f u θ φ = (-1 / (√2 : ℝ) : ℂ) * (pd (0, 1, 0) f u θ φ + (Complex.I * (((Real.sin θ)⁻¹ : ℝ) : ℂ)) * pd (0, 0, 1) f u θ φ + (-s : ℂ) * (((Real.cos θ : ℝ) : ℂ) * (((Real.sin θ)⁻¹ : ℝ) : ℂ)) * f u θ φ) := by
  have j : Jet s f _ _ u θ φ := ⟨⟨_, _, has_fderiv hf u θ φ h0 h1, rfl⟩⟩
  rw [j.eth]
  unfold pd
  push_cast
  ring

theorem smooth_eth (s : Int) {f : Field} (hf : Smooth f) : Smooth (eth s f) := by
  refine smooth_congr ?_ fun u θ φ h0 h1 => eth_pd s hf u θ φ h0 h1
  exact Smooth_mul (Smooth_const _) (Smooth_add (Smooth_add (smooth_pd _ hf) (Smooth_mul (Smooth_mul (Smooth_const _) smooth_csc) (smooth_pd _ hf))) (Smooth_mul (Smooth_mul (Smooth_const _) (Smooth_mul smooth_cos smooth_csc)) hf))

/-- The two operators commute. -/
theorem dt_eth (s : Int) {f : Field} (hf : Smooth f) (u θ φ : ℝ) (h0 : 0 < θ) (h1 : θ < Real.pi) : dt (eth s f) u θ φ = eth s (dt f) u θ φ := by
  rw [eth_pd s (smooth_dt hf) u θ φ h0 h1]
  have hu : ∀ x, eth s f x θ φ = _ := fun x => eth_pd s hf x θ φ h0 h1
  have d1 := (has_fderiv (smooth_pd (0, 1, 0) hf) u θ φ h0 h1).u
  have d2 := (has_fderiv (smooth_pd (0, 0, 1) hf) u θ φ h0 h1).u
  have d3 := (has_fderiv hf u θ φ h0 h1).u
  have h := (((d1.add (d2.const_mul (Complex.I * (((Real.sin θ)⁻¹ : ℝ) : ℂ)))).add (d3.const_mul ((-s : ℂ) * (((Real.cos θ : ℝ) : ℂ) * (((Real.sin θ)⁻¹ : ℝ) : ℂ))))).const_mul (-1 / (√2 : ℝ) : ℂ))
  have e : (fun x => eth s f x θ φ) = fun x => _ := funext hu
  show deriv (fun x => eth s f x θ φ) u = _
  rw [e]
  refine h.deriv.trans ?_
  have c1 : ∀ v : E, fderiv ℝ (unc (pd v f)) (u, θ, φ) (1, 0, 0) = pd v (dt f) u θ φ := by
    intro v
    show pd (1, 0, 0) (pd v f) u θ φ = _
    rw [pd_comm _ _ hf u θ φ h0 h1]
    unfold pd
    have he : unc (pd (1, 0, 0) f) =ᶠ[nhds (u, θ, φ)] unc (dt f) := by
      have hc : Continuous fun p : E => p.2.1 := continuous_fst.comp continuous_snd
      have : ∀ᶠ p : E in nhds (u, θ, φ), p.2.1 ∈ Set.Ioo 0 Real.pi := hc.continuousAt.eventually_mem (Ioo_mem_nhds h0 h1)
      filter_upwards [this] with p hp
      exact (dt_pd hf p.1 p.2.1 p.2.2 hp.1 hp.2).symm
    exact congrArg (fun L : E →L[ℝ] ℂ => L v) he.fderiv_eq
  rw [c1, c1, dt_pd hf u θ φ h0 h1]
  rfl

/-! ## The change of the frame -/

theorem Has.comp {g : Field} {t a b : ℂ} {U Th : E → ℝ} {LU LT : E →L[ℝ] ℝ} {u θ φ : ℝ} (hg : Has g t a b (U (u, θ, φ)) (Th (u, θ, φ)) φ)
    (hU : HasFDerivAt U LU (u, θ, φ)) (hT : HasFDerivAt Th LT (u, θ, φ)) :
    Has (fun u θ φ => g (U (u, θ, φ)) (Th (u, θ, φ)) φ) (LU (1, 0, 0) * t + LT (1, 0, 0) * a) (LU (0, 1, 0) * t + LT (0, 1, 0) * a) (LU (0, 0, 1) * t + LT (0, 0, 1) * a + b) u θ φ := by
  obtain ⟨L, hL, rfl, rfl, rfl⟩ := hg.ex
  have hp : HasFDerivAt (fun p : E => p.2.2) ((ContinuousLinearMap.snd ℝ ℝ ℝ).comp (ContinuousLinearMap.snd ℝ ℝ (ℝ × ℝ))) (u, θ, φ) :=
    ((ContinuousLinearMap.snd ℝ ℝ ℝ).comp (ContinuousLinearMap.snd ℝ ℝ (ℝ × ℝ))).hasFDerivAt
  have hV : HasFDerivAt (fun p : E => ((U p, Th p, p.2.2) : E)) _ (u, θ, φ) := hU.prodMk (hT.prodMk hp)
  have key : ∀ x y z : ℝ, L (x, y, z) = x * L (1, 0, 0) + y * L (0, 1, 0) + z * L (0, 0, 1) := by
    intro x y z
    have : ((x, y, z) : E) = x • (1, 0, 0) + y • (0, 1, 0) + z • (0, 0, 1) := by simp
    rw [this, map_add, map_add, map_smul, map_smul, map_smul]
    rfl
  refine ⟨⟨_, HasFDerivAt.comp (u, θ, φ) (g := unc g) hL hV, ?_, ?_, ?_⟩⟩
  · show L (LU (1, 0, 0), LT (1, 0, 0), 0) = _
    rw [key]; simp
  · show L (LU (0, 1, 0), LT (0, 1, 0), 0) = _
    rw [key]; simp
  · show L (LU (0, 0, 1), LT (0, 0, 1), 1) = _
    rw [key]; simp

end Verif.Jets
