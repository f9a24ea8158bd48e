import Verif.Spec.InitialValues
import Mathlib.Analysis.Calculus.Deriv.Mul
import Mathlib.Analysis.Calculus.Deriv.Add
import Mathlib.Analysis.Calculus.MeanValue
import Mathlib.MeasureTheory.Integral.IntervalIntegral.FundThmCalculus
import Mathlib.Analysis.Calculus.ContDiff.Basic
import Mathlib.Analysis.Calculus.IteratedDeriv.Defs
import Mathlib.Tactic.Module

/-!
# C33: data from initial values satisfy the constraint equations at all times
-/

namespace Verif.Props.InitialValues

open Verif.InitialValues Verif.Spec.InitialValues

variable {M : Type*} [NormedAddCommGroup M] [NormedSpace ℂ M]

theorem horner (f : ℝ → M) (f' c : M) (u : ℝ) (h : HasDerivAt f f' u) : HasDerivAt (fun u => u • f u + c) (u • f' + f u) u := by
  have := ((hasDerivAt_id u).smul h).add_const c
  simpa using this

theorem I_im (A : Sphere M) (x : M) : Complex.I • A.im x = (1 / 2 : ℝ) • (x - A.bar x) := by
  rw [Sphere.im, smul_smul, ← Complex.coe_smul]
  congr 1
  push_cast
  field_simp

theorem bar_re (A : Sphere M) (x : M) : A.bar (A.re x) = A.re x := by
  rw [Sphere.re, map_smul, map_add, A.bar_bar, add_comm]

/-- The imaginary part vanishes exactly for real functions. -/
theorem im_eq_zero (A : Sphere M) (x : M) : A.im x = 0 ↔ A.bar x = x := by
  rw [Sphere.im, smul_eq_zero_iff_right (by simp), sub_eq_zero, eq_comm]

/-- C33, first branch: all equations hold at all times. -/
theorem fromPoly_bondi (A : Sphere M) (sigma0 sigmadot0 sigmaddot0 psi2 psi1 psi0 : M) : Bondi A (fromPoly A sigma0 sigmadot0 sigmaddot0 psi2 psi1 psi0) := by
  refine ⟨fun u => ?_, fun u => ?_, fun u => ?_, fun u => u • sigmaddot0 + sigmadot0, fun _ => sigmaddot0, fun u => ?_, fun u => ?_, fun u => ?_, fun u => ?_, fun u => ?_⟩
  · unfold fromPoly
    dsimp only
    refine (horner _ _ _ u (horner _ _ _ u (horner _ _ _ u (horner _ _ _ u (horner _ _ _ u (horner _ _ _ u (hasDerivAt_const u _))))))).congr_deriv ?_
    simp only [map_add, map_smul, map_neg, ContinuousLinearMap.add_apply, ContinuousLinearMap.smul_apply, smul_zero, zero_add, map_sub]
    module
  · unfold fromPoly
    dsimp only
    refine (horner _ _ _ u (horner _ _ _ u (horner _ _ _ u (horner _ _ _ u (hasDerivAt_const u _))))).congr_deriv ?_
    simp only [map_add, map_smul, map_neg, ContinuousLinearMap.add_apply, ContinuousLinearMap.smul_apply, smul_zero, zero_add, map_sub]
    module
  · unfold fromPoly
    dsimp only
    refine (horner _ _ _ u (horner _ _ _ u (horner _ _ _ u (hasDerivAt_const u _)))).congr_deriv ?_
    simp only [map_add, map_smul, map_neg, ContinuousLinearMap.add_apply, ContinuousLinearMap.smul_apply, smul_zero, zero_add, map_sub]
    module
  · unfold fromPoly
    dsimp only
    refine (horner _ _ _ u (horner _ _ _ u (hasDerivAt_const u _))).congr_deriv ?_
    module
  · refine (horner _ _ _ u (hasDerivAt_const u _)).congr_deriv ?_
    module
  · simp only [fromPoly, map_add, map_smul]
    module
  · simp only [fromPoly, map_smul]
    module
  · simp only [fromPoly, I_im, Sphere.re, map_add, map_smul, map_neg, map_sub, ContinuousLinearMap.add_apply, ContinuousLinearMap.smul_apply, A.bar_mul, A.bar_bar]
    simp only [A.mul_comm (A.bar _) _]
    module

/-- The values at `u = 0` are those that were asked for; of `psi2` only the real part can be. -/
theorem fromPoly_initial (A : Sphere M) (sigma0 sigmadot0 sigmaddot0 psi2 psi1 psi0 : M) :
    let d := fromPoly A sigma0 sigmadot0 sigmaddot0 psi2 psi1 psi0
    d.sigma 0 = sigma0 ∧ HasDerivAt d.sigma sigmadot0 0 ∧ (∀ u, deriv (deriv d.sigma) u = sigmaddot0) ∧ d.psi1 0 = psi1 ∧ d.psi0 0 = psi0 ∧ A.re (d.psi2 0) = A.re psi2 := by
  intro d
  have h : ∀ u, HasDerivAt d.sigma (u • sigmaddot0 + sigmadot0) u := fun u => by
    refine (horner _ _ _ u (horner _ _ _ u (hasDerivAt_const u _))).congr_deriv ?_
    module
  refine ⟨by simp [d, fromPoly], by simpa using h 0, fun u => ?_, by simp [d, fromPoly], by simp [d, fromPoly], ?_⟩
  · have : deriv d.sigma = fun u => u • sigmaddot0 + sigmadot0 := funext fun u => (h u).deriv
    rw [this]
    refine HasDerivAt.deriv ((horner _ _ _ u (hasDerivAt_const u _)).congr_deriv ?_)
    module
  · simp only [d, fromPoly, zero_smul, zero_add, Sphere.re, I_im, map_sub, map_add, map_smul, A.bar_bar]
    module

/-- C33, second branch: for twice continuously differentiable `sigma0` and exact differentiation and integration all equations hold at all times. -/
theorem fromSeries_bondi [CompleteSpace M] (A : Sphere M) (u0 : ℝ) (sigma0 : ℝ → M) (hs : Differentiable ℝ sigma0) (hs' : Differentiable ℝ (deriv sigma0)) (hs'' : Continuous (deriv (deriv sigma0)))
    (psi2 psi1 psi0 : M) : Bondi A (fromSeries A u0 sigma0 psi2 psi1 psi0) := by
  have hbar : ∀ u, deriv (fun v => A.bar (sigma0 v)) u = A.bar (deriv sigma0 u) := fun u => (A.bar.hasFDerivAt.comp_hasDerivAt u (hs u).hasDerivAt).deriv
  have c0 : Continuous sigma0 := hs.continuous
  have c1 : Continuous (deriv sigma0) := hs'.continuous
  set d := fromSeries A u0 sigma0 psi2 psi1 psi0 with hd
  have cm : ∀ f g : ℝ → M, Continuous f → Continuous g → Continuous fun v => A.mul (f v) (g v) := fun f g hf hg => (A.mul.continuous.comp hf).clm_apply hg
  have c4 : Continuous d.psi4 := (A.bar.continuous.comp hs'').neg
  have c3 : Continuous d.psi3 := (A.eth.continuous.comp (A.bar.continuous.comp c1)).neg
  have ftc : ∀ (f : ℝ → M) (c : M), Continuous f → ∀ u, HasDerivAt (fun u => (∫ v in u0..u, f v) + c) (f u) u := fun f c hf u =>
    (intervalIntegral.integral_hasDerivAt_right (hf.intervalIntegrable _ _) (hf.stronglyMeasurableAtFilter _ _) hf.continuousAt).add_const c
  have d2 : ∀ u, HasDerivAt d.psi2 (A.eth (d.psi3 u) + A.mul (d.sigma u) (d.psi4 u)) u := ftc _ _ ((A.eth.continuous.comp c3).add (cm _ _ c0 c4))
  have c2 : Continuous d.psi2 := continuous_iff_continuousAt.mpr fun u => (d2 u).continuousAt
  have d1 : ∀ u, HasDerivAt d.psi1 (A.eth (d.psi2 u) + A.mul ((2 : ℝ) • d.sigma u) (d.psi3 u)) u := ftc _ _ ((A.eth.continuous.comp c2).add (cm _ _ (continuous_const.smul c0) c3))
  have c1' : Continuous d.psi1 := continuous_iff_continuousAt.mpr fun u => (d1 u).continuousAt
  have d0 : ∀ u, HasDerivAt d.psi0 (A.eth (d.psi1 u) + A.mul ((3 : ℝ) • d.sigma u) (d.psi2 u)) u := ftc _ _ ((A.eth.continuous.comp c1').add (cm _ _ (continuous_const.smul c0) c2))
  refine ⟨fun u => (d0 u).congr_deriv (by simp), fun u => (d1 u).congr_deriv (by simp), d2, deriv sigma0, deriv (deriv sigma0), fun u => (hs u).hasDerivAt, fun u => (hs' u).hasDerivAt,
    fun u => rfl, fun u => rfl, ?_⟩
  -- the mass aspect has a real derivative and is real at `u0`
  set X : ℝ → M := fun u => d.psi2 u + A.eth (A.eth (A.bar (d.sigma u))) + A.mul (d.sigma u) (A.bar (deriv sigma0 u)) with hX
  have hXd : ∀ u, HasDerivAt X (A.mul (deriv sigma0 u) (A.bar (deriv sigma0 u))) u := by
    intro u
    have e1 : HasDerivAt (fun u => A.eth (A.eth (A.bar (d.sigma u)))) (A.eth (A.eth (A.bar (deriv sigma0 u)))) u :=
      (A.eth.hasFDerivAt.comp_hasDerivAt u (A.eth.hasFDerivAt.comp_hasDerivAt u (A.bar.hasFDerivAt.comp_hasDerivAt u (hs u).hasDerivAt)))
    have e2 : HasDerivAt (fun u => A.bar (deriv sigma0 u)) (A.bar (deriv (deriv sigma0) u)) u := A.bar.hasFDerivAt.comp_hasDerivAt u (hs' u).hasDerivAt
    have e3 : HasDerivAt (fun u => A.mul (d.sigma u)) (A.mul (deriv sigma0 u)) u := A.mul.hasFDerivAt.comp_hasDerivAt u (hs u).hasDerivAt
    refine (((d2 u).add e1).add (e3.clm_apply e2)).congr_deriv ?_
    have p3 : d.psi3 u = -(A.eth (A.bar (deriv sigma0 u))) := rfl
    have p4 : d.psi4 u = -(A.bar (deriv (deriv sigma0) u)) := rfl
    rw [p3, p4]
    simp only [map_neg]
    abel
  have hYd : ∀ u, HasDerivAt (fun u => A.bar (X u) - X u) 0 u := by
    intro u
    refine ((A.bar.hasFDerivAt.comp_hasDerivAt u (hXd u)).sub (hXd u)).congr_deriv ?_
    rw [A.bar_mul, A.bar_bar, A.mul_comm, sub_self]
  have hY0 : A.bar (X u0) - X u0 = 0 := by
    have e : d.psi2 u0 = A.re psi2 - Complex.I • A.im (A.eth (A.eth (A.bar (sigma0 u0))) + A.mul (sigma0 u0) (A.bar (deriv sigma0 u0))) := by
      rw [← hbar u0]
      simp [hd, fromSeries]
    have e' : d.sigma u0 = sigma0 u0 := rfl
    simp only [hX, e, e', I_im, Sphere.re, map_add, map_smul, map_sub, A.bar_bar]
    module
  intro u
  have hconst := is_const_of_deriv_eq_zero (f := fun u => A.bar (X u) - X u) (fun u => (hYd u).differentiableAt) (fun u => (hYd u).deriv) u u0
  exact sub_eq_zero.mp (hconst.trans hY0)

/-- The values at the first time. -/
theorem fromSeries_initial (A : Sphere M) (u0 : ℝ) (sigma0 : ℝ → M) (psi2 psi1 psi0 : M) :
    let d := fromSeries A u0 sigma0 psi2 psi1 psi0
    d.sigma = sigma0 ∧ d.psi1 u0 = psi1 ∧ d.psi0 u0 = psi0 ∧ A.re (d.psi2 u0) = A.re psi2 := by
  refine ⟨rfl, by simp [fromSeries], by simp [fromSeries], ?_⟩
  simp only [fromSeries, intervalIntegral.integral_same, zero_add, Sphere.re, I_im, map_sub, map_add, map_smul, A.bar_bar]
  module

/-- The functions of `constraints.py` report no violation exactly for data that satisfy the equations: here for data with the derivatives in question. -/
theorem violations_zero (A : Sphere M) (d : ABD M) (h : Bondi A d) : bondiViolations A d = List.replicate 6 (some fun _ => 0) := by
  obtain ⟨h0, h1, h2, s1, s2, g1, g2, g3, g4, g5⟩ := h
  have hbar : (deriv fun v => A.bar (d.sigma v)) = fun u => A.bar (s1 u) := funext fun u => (A.bar.hasFDerivAt.comp_hasDerivAt u (g1 u)).deriv
  have hbar2 : (deriv fun u => A.bar (s1 u)) = fun u => A.bar (s2 u) := funext fun u => (A.bar.hasFDerivAt.comp_hasDerivAt u (g2 u)).deriv
  have e0 : deriv d.psi0 = fun u => A.eth (d.psi1 u) + (3 : ℝ) • A.mul (d.sigma u) (d.psi2 u) := funext fun u => (h0 u).deriv
  have e1 : deriv d.psi1 = fun u => A.eth (d.psi2 u) + (2 : ℝ) • A.mul (d.sigma u) (d.psi3 u) := funext fun u => (h1 u).deriv
  have e2 : deriv d.psi2 = fun u => A.eth (d.psi3 u) + A.mul (d.sigma u) (d.psi4 u) := funext fun u => (h2 u).deriv
  have e5 : ∀ u, A.im (d.psi2 u) + A.im (A.eth (A.eth (A.bar (d.sigma u))) + A.mul (d.sigma u) (A.bar (s1 u))) = 0 := by
    intro u
    have := (im_eq_zero A _).mpr (g5 u)
    rw [← this]
    simp only [Sphere.im, map_add]
    module
  simp only [bondiViolations, bondiConstraints, bianchi0, bianchi1, bianchi2, constraint3, constraint4, constraintMassAspect, sides, Bool.and_self, if_true, List.map, violation, hbar, hbar2, e0, e1, e2]
  simp only [List.replicate, List.cons.injEq, Option.some.injEq, and_true, funext_iff]
  refine ⟨fun u => by simp, fun u => by simp, fun u => by simp, fun u => by simp [g3], fun u => by simp [g4], fun u => ?_⟩
  rw [sub_neg_eq_add]
  exact e5 u

/-- The converse, for differentiable data. -/
theorem violations_detect (A : Sphere M) (d : ABD M) (hd0 : Differentiable ℝ d.psi0) (hd1 : Differentiable ℝ d.psi1) (hd2 : Differentiable ℝ d.psi2) (hs : Differentiable ℝ d.sigma) (hs' : Differentiable ℝ (deriv d.sigma))
    (h : bondiViolations A d = List.replicate 6 (some fun _ => 0)) : Bondi A d := by
  have hbar : (deriv fun v => A.bar (d.sigma v)) = fun u => A.bar (deriv d.sigma u) := funext fun u => (A.bar.hasFDerivAt.comp_hasDerivAt u (hs u).hasDerivAt).deriv
  have hbar2 : (deriv fun u => A.bar (deriv d.sigma u)) = fun u => A.bar (deriv (deriv d.sigma) u) := funext fun u => (A.bar.hasFDerivAt.comp_hasDerivAt u (hs' u).hasDerivAt).deriv
  simp only [bondiViolations, bondiConstraints, bianchi0, bianchi1, bianchi2, constraint3, constraint4, constraintMassAspect, sides, Bool.and_self, if_true, List.map, violation, hbar, hbar2,
    List.replicate, List.cons.injEq, Option.some.injEq, and_true, funext_iff, sub_eq_zero] at h
  obtain ⟨h0, h1, h2, h3, h4, h5⟩ := h
  refine ⟨fun u => ?_, fun u => ?_, fun u => ?_, deriv d.sigma, deriv (deriv d.sigma), fun u => (hs u).hasDerivAt, fun u => (hs' u).hasDerivAt, h3, h4, fun u => ?_⟩
  · refine (hd0 u).hasDerivAt.congr_deriv ?_
    rw [h0 u]
    simp
  · refine (hd1 u).hasDerivAt.congr_deriv ?_
    rw [h1 u]
    simp
  · exact (hd2 u).hasDerivAt.congr_deriv (h2 u)
  · rw [← im_eq_zero]
    have := h5 u
    rw [eq_neg_iff_add_eq_zero] at this
    rw [← this]
    simp only [Sphere.im, map_add]
    module

/-- The flags `lhs` and `rhs`. -/
theorem sides_spec {X : Type*} (l r : X) : sides true true l r = .both l r ∧ sides true false l r = .one l ∧ sides false true l r = .one r ∧ sides false false l r = .none := ⟨rfl, rfl, rfl, rfl⟩

/-- Complex numbers with their usual product are a case: `ð` is multiplication by 2. -/
noncomputable example : Sphere ℂ where
  eth := (2 : ℝ) • ContinuousLinearMap.id ℝ ℂ
  mul := ContinuousLinearMap.mul ℝ ℂ
  bar := Complex.conjCLE.toContinuousLinearMap
  bar_bar := fun x => by simp
  bar_I := fun x => by simp
  mul_comm := fun x y => by simp [mul_comm]
  bar_mul := fun x y => by simp

end Verif.Props.InitialValues
