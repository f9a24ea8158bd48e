import Verif.Props.SphereOps
import Verif.Lemmas.Sphere
import Mathlib.MeasureTheory.Integral.Prod
import Mathlib.MeasureTheory.Integral.IntervalIntegral.FundThmCalculus

/-!
# Integration by parts on the sphere
-/

namespace Verif.SphereParts
open Verif.GridMultiply Verif.SphereDeriv Verif.Spec.Sphere Verif.Spec.Boost Verif.Props.SphereOps
open MeasureTheory Set

/-- Change of the order of integration for continuous functions. -/
theorem swap {F : ℝ → ℝ → ℂ} (h : Continuous fun p : ℝ × ℝ => F p.1 p.2) (a b c d : ℝ) : ∫ x in a..b, ∫ y in c..d, F x y = ∫ y in c..d, ∫ x in a..b, F x y := by
  apply intervalIntegral_intervalIntegral_swap
  have h1 : IntegrableOn F.uncurry (uIcc a b ×ˢ uIcc c d) := by
    apply ContinuousOn.integrableOn_compact (isCompact_uIcc.prod isCompact_uIcc)
    exact h.continuousOn
  exact h1.mono_set (Set.prod_mono uIoc_subset_uIcc uIoc_subset_uIcc)

/-- A derivative with respect to `theta` of something that vanishes at both poles has integral zero. -/
theorem theta_total {W W' : ℝ → ℝ → ℂ} (hW : ∀ θ φ, HasDerivAt (fun x => W x φ) (W' θ φ) θ) (hc : Continuous fun p : ℝ × ℝ => W p.1 p.2) (hc' : Continuous fun p : ℝ × ℝ => W' p.1 p.2) :
    ∫ θ in (0 : ℝ)..Real.pi, ∫ φ in (0 : ℝ)..(2 * Real.pi), (W' θ φ * (Real.sin θ : ℝ) + W θ φ * (Real.cos θ : ℝ)) = 0 := by
  rw [swap (F := fun θ φ => W' θ φ * (Real.sin θ : ℝ) + W θ φ * (Real.cos θ : ℝ)) (by fun_prop)]
  have : ∀ φ : ℝ, ∫ θ in (0 : ℝ)..Real.pi, (W' θ φ * (Real.sin θ : ℝ) + W θ φ * (Real.cos θ : ℝ)) = 0 := by
    intro φ
    have hd : ∀ θ ∈ uIcc 0 Real.pi, HasDerivAt (fun θ => W θ φ * (Real.sin θ : ℝ)) (W' θ φ * (Real.sin θ : ℝ) + W θ φ * (Real.cos θ : ℝ)) θ := by
      intro θ _
      exact (hW θ φ).mul (Real.hasDerivAt_sin θ).ofReal_comp
    rw [intervalIntegral.integral_eq_sub_of_hasDerivAt hd]
    · simp
    · apply Continuous.intervalIntegrable
      have h1 : Continuous fun θ : ℝ => W' θ φ := hc'.comp (by fun_prop : Continuous fun θ : ℝ => (θ, φ))
      have h2 : Continuous fun θ : ℝ => W θ φ := hc.comp (by fun_prop : Continuous fun θ : ℝ => (θ, φ))
      fun_prop
  simp only [this, intervalIntegral.integral_zero]

/-- A derivative with respect to `phi` has integral zero. -/
theorem phi_total {W W' : ℝ → ℝ → ℂ} (hW : ∀ θ φ, HasDerivAt (fun x => W θ x) (W' θ φ) φ) (hc' : Continuous fun p : ℝ × ℝ => W' p.1 p.2) (hp : ∀ θ, W θ (2 * Real.pi) = W θ 0) :
    ∫ θ in (0 : ℝ)..Real.pi, ∫ φ in (0 : ℝ)..(2 * Real.pi), W' θ φ = 0 := by
  have : ∀ θ : ℝ, ∫ φ in (0 : ℝ)..(2 * Real.pi), W' θ φ = 0 := by
    intro θ
    rw [intervalIntegral.integral_eq_sub_of_hasDerivAt (fun φ _ => hW θ φ), hp θ, sub_self]
    apply Continuous.intervalIntegrable
    exact hc'.comp (by fun_prop : Continuous fun φ : ℝ => (θ, φ))
  simp only [this, intervalIntegral.integral_zero]

/-- A function given by its modes is continuous in the angles. -/
theorem field_cont (s a b : Int) (f : Int → Int → ℂ) : Continuous fun p : ℝ × ℝ => field s a b f p.1 p.2 := Verif.Sphere.fieldR_cont s a b f

theorem Y_periodic (s l m : Int) (h1 : -l ≤ m) (h2 : m ≤ l) (θ : ℝ) : Y s l m (rotor θ (2 * Real.pi)) = Y s l m (rotor θ 0) := by
  have hd : ∀ φ : ℝ, HasDerivAt (fun x : ℝ => Complex.exp (-(Complex.I * m) * x) * Y s l m (rotor θ x)) 0 φ := by
    intro φ
    have e : HasDerivAt (fun x : ℝ => -(Complex.I * m) * (x : ℂ)) (-(Complex.I * m)) φ := by
      have := ((hasDerivAt_id φ).ofReal_comp.const_mul (-(Complex.I * m)))
      simpa using this
    refine Eq.subst (motive := fun d => HasDerivAt _ d φ) ?_ (e.cexp.mul (Y_phi s l m h1 h2 θ φ))
    ring
  have hk := is_const_of_deriv_eq_zero (fun φ => (hd φ).differentiableAt) (fun φ => (hd φ).deriv) (2 * Real.pi) 0
  have e : Complex.exp (-(Complex.I * m) * ((2 * Real.pi : ℝ) : ℂ)) = 1 := by
    rw [Complex.exp_eq_one_iff]
    exact ⟨-m, by push_cast; ring⟩
  rw [e] at hk
  simpa using hk

theorem field_periodic (s a b : Int) (f : Int → Int → ℂ) (θ : ℝ) : field s a b f θ (2 * Real.pi) = field s a b f θ 0 := by
  unfold field
  refine Finset.sum_congr rfl fun ell _ => Finset.sum_congr rfl fun m hm => ?_
  rw [Finset.mem_Icc] at hm
  rw [Y_periodic s ell m hm.1 hm.2]

/-- `sin θ ð F` and `sin θ ð̄ F` in terms of the derivatives, at all points. -/
theorem sin_eth (s a b : Int) (f : Int → Int → ℂ) :
    ∃ T P : ℝ → ℝ → ℂ, (∀ θ φ, HasDerivAt (fun x => field s a b f x φ) (T θ φ) θ) ∧ (∀ θ φ, HasDerivAt (fun x => field s a b f θ x) (P θ φ) φ) ∧
      (Continuous fun p : ℝ × ℝ => T p.1 p.2) ∧ (Continuous fun p : ℝ × ℝ => P p.1 p.2) ∧
      ∀ θ φ, field (s + 1) a b (eth s f) θ φ * (Real.sin θ : ℝ) = -(T θ φ * (Real.sin θ : ℝ)) - Complex.I * P θ φ + s * (Real.cos θ : ℝ) * field s a b f θ φ ∧
        field (s - 1) a b (ethbar s f) θ φ * (Real.sin θ : ℝ) = -(T θ φ * (Real.sin θ : ℝ)) + Complex.I * P θ φ - s * (Real.cos θ : ℝ) * field s a b f θ φ := by
  refine ⟨fun θ φ => -(1 / 2) * (field (s + 1) a b (eth s f) θ φ + field (s - 1) a b (ethbar s f) θ φ), fun θ φ => field s a b (fun ell m => Complex.I * m * f ell m) θ φ,
    fun θ φ => (field_derivatives s a b f θ φ).1, fun θ φ => (field_derivatives s a b f θ φ).2, ?_, field_cont _ _ _ _, fun θ φ => ?_⟩
  · exact continuous_const.mul ((field_cont _ _ _ _).add (field_cont _ _ _ _))
  · have h3 := field_spin s a b f θ φ
    have e2 : field s a b (fun ell m => Complex.I * m * f ell m) θ φ = Complex.I * field s a b (fun ell m => (m : ℂ) * f ell m) θ φ := by
      rw [← field_const]
      simp only [mul_assoc]
    have hI := Complex.I_mul_I
    dsimp only
    rw [e2]
    constructor
    · linear_combination -h3 + (field s a b (fun ell m => (m : ℂ) * f ell m) θ φ) * hI
    · linear_combination h3 - (field s a b (fun ell m => (m : ℂ) * f ell m) θ φ) * hI

/-- The integral of `ð` of a product of total spin weight -1, and of `ð̄` of a product of total spin weight 1, is zero. -/
theorem parts (s1 s2 s3 a1 b1 a2 b2 a3 b3 : Int) (f1 f2 f3 : Int → Int → ℂ) :
    (s1 + s2 + s3 = -1 → solid (fun θ φ => field (s1 + 1) a1 b1 (eth s1 f1) θ φ * field s2 a2 b2 f2 θ φ * field s3 a3 b3 f3 θ φ
      + field s1 a1 b1 f1 θ φ * field (s2 + 1) a2 b2 (eth s2 f2) θ φ * field s3 a3 b3 f3 θ φ + field s1 a1 b1 f1 θ φ * field s2 a2 b2 f2 θ φ * field (s3 + 1) a3 b3 (eth s3 f3) θ φ) = 0) ∧
    (s1 + s2 + s3 = 1 → solid (fun θ φ => field (s1 - 1) a1 b1 (ethbar s1 f1) θ φ * field s2 a2 b2 f2 θ φ * field s3 a3 b3 f3 θ φ
      + field s1 a1 b1 f1 θ φ * field (s2 - 1) a2 b2 (ethbar s2 f2) θ φ * field s3 a3 b3 f3 θ φ + field s1 a1 b1 f1 θ φ * field s2 a2 b2 f2 θ φ * field (s3 - 1) a3 b3 (ethbar s3 f3) θ φ) = 0) := by
  obtain ⟨T1, P1, ht1, hp1, ct1, cp1, e1⟩ := sin_eth s1 a1 b1 f1
  obtain ⟨T2, P2, ht2, hp2, ct2, cp2, e2⟩ := sin_eth s2 a2 b2 f2
  obtain ⟨T3, P3, ht3, hp3, ct3, cp3, e3⟩ := sin_eth s3 a3 b3 f3
  have c1 := field_cont s1 a1 b1 f1
  have c2 := field_cont s2 a2 b2 f2
  have c3 := field_cont s3 a3 b3 f3
  have q1 := field_periodic s1 a1 b1 f1
  have q2 := field_periodic s2 a2 b2 f2
  have q3 := field_periodic s3 a3 b3 f3
  generalize field s1 a1 b1 f1 = F1 at *
  generalize field s2 a2 b2 f2 = F2 at *
  generalize field s3 a3 b3 f3 = F3 at *
  have hT := theta_total (W := fun θ φ => F1 θ φ * F2 θ φ * F3 θ φ) (W' := fun θ φ => (T1 θ φ * F2 θ φ + F1 θ φ * T2 θ φ) * F3 θ φ + F1 θ φ * F2 θ φ * T3 θ φ)
    (fun θ φ => ((ht1 θ φ).mul (ht2 θ φ)).mul (ht3 θ φ)) (by fun_prop) (by fun_prop)
  have hP := phi_total (W := fun θ φ => F1 θ φ * F2 θ φ * F3 θ φ) (W' := fun θ φ => (P1 θ φ * F2 θ φ + F1 θ φ * P2 θ φ) * F3 θ φ + F1 θ φ * F2 θ φ * P3 θ φ)
    (fun θ φ => ((hp1 θ φ).mul (hp2 θ φ)).mul (hp3 θ φ)) (by fun_prop) (fun θ => by rw [q1, q2, q3])
  have lin : ∀ (X Z : ℝ → ℝ → ℂ) (k : ℂ), (Continuous fun p : ℝ × ℝ => X p.1 p.2) → (Continuous fun p : ℝ × ℝ => Z p.1 p.2) →
      (∫ θ in (0 : ℝ)..Real.pi, ∫ φ in (0 : ℝ)..(2 * Real.pi), X θ φ) = 0 → (∫ θ in (0 : ℝ)..Real.pi, ∫ φ in (0 : ℝ)..(2 * Real.pi), Z θ φ) = 0 →
      (∫ θ in (0 : ℝ)..Real.pi, ∫ φ in (0 : ℝ)..(2 * Real.pi), (-X θ φ + k * Z θ φ)) = 0 := by
    intro X Z k hX hZ h1 h2
    have i1 : ∀ θ : ℝ, Continuous fun φ : ℝ => X θ φ := fun θ => hX.comp (by fun_prop : Continuous fun φ : ℝ => (θ, φ))
    have i2 : ∀ θ : ℝ, Continuous fun φ : ℝ => Z θ φ := fun θ => hZ.comp (by fun_prop : Continuous fun φ : ℝ => (θ, φ))
    have o1 : Continuous fun θ => ∫ φ in (0 : ℝ)..(2 * Real.pi), X θ φ := intervalIntegral.continuous_parametric_intervalIntegral_of_continuous' hX _ _
    have o2 : Continuous fun θ => ∫ φ in (0 : ℝ)..(2 * Real.pi), Z θ φ := intervalIntegral.continuous_parametric_intervalIntegral_of_continuous' hZ _ _
    have e : ∀ θ : ℝ, ∫ φ in (0 : ℝ)..(2 * Real.pi), (-X θ φ + k * Z θ φ) = -(∫ φ in (0 : ℝ)..(2 * Real.pi), X θ φ) + k * ∫ φ in (0 : ℝ)..(2 * Real.pi), Z θ φ := by
      intro θ
      rw [intervalIntegral.integral_add ((i1 θ).fun_neg.intervalIntegrable _ _) (((i2 θ).const_mul k).intervalIntegrable _ _), intervalIntegral.integral_neg, intervalIntegral.integral_const_mul]
    simp only [e]
    rw [intervalIntegral.integral_add (o1.fun_neg.intervalIntegrable _ _) ((o2.const_mul k).intervalIntegrable _ _), intervalIntegral.integral_neg, intervalIntegral.integral_const_mul, h1, h2]
    ring
  constructor
  · intro hs
    refine Eq.trans ?_ (lin _ _ (-Complex.I) ?_ ?_ hT hP)
    · unfold solid
      refine congrArg (fun g : ℝ → ℂ => ∫ θ in (0 : ℝ)..Real.pi, g θ) (funext fun θ => congrArg (fun g : ℝ → ℂ => ∫ φ in (0 : ℝ)..(2 * Real.pi), g φ) (funext fun φ => ?_))
      have hs' : (s1 + s2 + s3 : ℂ) = -1 := by exact_mod_cast hs
      linear_combination F2 θ φ * F3 θ φ * (e1 θ φ).1 + F1 θ φ * F3 θ φ * (e2 θ φ).1 + F1 θ φ * F2 θ φ * (e3 θ φ).1 + (Real.cos θ : ℝ) * F1 θ φ * F2 θ φ * F3 θ φ * hs'
    · fun_prop
    · fun_prop
  · intro hs
    refine Eq.trans ?_ (lin _ _ Complex.I ?_ ?_ hT hP)
    · unfold solid
      refine congrArg (fun g : ℝ → ℂ => ∫ θ in (0 : ℝ)..Real.pi, g θ) (funext fun θ => congrArg (fun g : ℝ → ℂ => ∫ φ in (0 : ℝ)..(2 * Real.pi), g φ) (funext fun φ => ?_))
      have hs' : (s1 + s2 + s3 : ℂ) = 1 := by exact_mod_cast hs
      linear_combination F2 θ φ * F3 θ φ * (e1 θ φ).2 + F1 θ φ * F3 θ φ * (e2 θ φ).2 + F1 θ φ * F2 θ φ * (e3 θ φ).2 - (Real.cos θ : ℝ) * F1 θ φ * F2 θ φ * F3 θ φ * hs'
    · fun_prop
    · fun_prop

end Verif.SphereParts
