import Verif.Model.Charges
import Verif.Spec.Charges
import Mathlib.Tactic.LinearCombination
import Mathlib.Tactic.FieldSimp
import Mathlib.Tactic.FinCases

/-!
# C34: the charges
-/

namespace Verif.Props.Charges

open Verif.Charges Verif.Spec.Charges Real

/-! ## The integrals -/

theorem inner (a b c d e f : ℝ) : (∫ φ in (0 : ℝ)..(2 * π), (a + b * cos φ + c * sin φ + d * cos φ ^ 2 + e * sin φ ^ 2 + f * (sin φ * cos φ))) = 2 * π * a + π * d + π * e := by
  have h : ∀ g : ℝ → ℝ, Continuous g → IntervalIntegrable g MeasureTheory.volume 0 (2 * π) := fun g hg => hg.intervalIntegrable _ _
  rw [intervalIntegral.integral_add (h _ (by fun_prop)) (h _ (by fun_prop)), intervalIntegral.integral_add (h _ (by fun_prop)) (h _ (by fun_prop)),
    intervalIntegral.integral_add (h _ (by fun_prop)) (h _ (by fun_prop)), intervalIntegral.integral_add (h _ (by fun_prop)) (h _ (by fun_prop)),
    intervalIntegral.integral_add (h _ (by fun_prop)) (h _ (by fun_prop))]
  simp only [intervalIntegral.integral_const_mul, intervalIntegral.integral_const, integral_cos, integral_sin, integral_cos_sq, integral_sin_sq, integral_sin_mul_cos₁]
  simp
  ring

theorem outer (a b c d : ℝ) : (∫ θ in (0 : ℝ)..π, (a * sin θ + b * (sin θ * cos θ) + c * (sin θ * cos θ ^ 2) + d * sin θ ^ 3)) = 2 * a + 2 / 3 * c + 4 / 3 * d := by
  have h : ∀ θ : ℝ, HasDerivAt (fun θ => -(a + d) * cos θ - b / 2 * cos θ ^ 2 - (c - d) / 3 * cos θ ^ 3) (a * sin θ + b * (sin θ * cos θ) + c * (sin θ * cos θ ^ 2) + d * sin θ ^ 3) θ := by
    intro θ
    have h1 := hasDerivAt_cos θ
    refine (((h1.const_mul (-(a + d))).sub ((h1.pow 2).const_mul (b / 2))).sub ((h1.pow 3).const_mul ((c - d) / 3))).congr_deriv ?_
    have := sin_sq_add_cos_sq θ
    push_cast
    simp
    linear_combination (-(d * sin θ)) * this
  rw [intervalIntegral.integral_eq_sub_of_hasDerivAt (fun θ _ => h θ) (Continuous.intervalIntegrable (by fun_prop) _ _)]
  simp
  ring

theorem eval_re (f : Modes) (θ φ : ℝ) : (eval f θ φ).re = (f 0 0).re / √(4 * π) + √(3 / (4 * π)) * (f 1 0).re * cos θ +
    sin θ * (√(3 / (8 * π)) * ((f 1 (-1)).re - (f 1 1).re) * cos φ + √(3 / (8 * π)) * ((f 1 (-1)).im + (f 1 1).im) * sin φ) := by
  simp only [eval, Y00, Y1m, Y10, Y11, Complex.add_re, Complex.mul_re, Complex.neg_re, Complex.neg_im, Complex.mul_im, Complex.ofReal_re, Complex.ofReal_im]
  ring

theorem root6 : √(3 / (8 * π)) / 3 = 1 / (√6 * √(4 * π)) := by
  rw [← sqrt_mul (by norm_num), eq_div_iff (by positivity), div_mul_eq_mul_div, ← sqrt_mul (by positivity), div_eq_one_iff_eq (by norm_num)]
  rw [show 3 / (8 * π) * (6 * (4 * π)) = 3 ^ 2 by field_simp; norm_num, sqrt_sq (by norm_num)]

theorem root3 : √(3 / (4 * π)) / 3 = 1 / (√3 * √(4 * π)) := by
  rw [← sqrt_mul (by norm_num), eq_div_iff (by positivity), div_mul_eq_mul_div, ← sqrt_mul (by positivity), div_eq_one_iff_eq (by norm_num)]
  rw [show 3 / (4 * π) * (3 * (4 * π)) = 3 ^ 2 by field_simp, sqrt_sq (by norm_num)]

/-- The integrals of a function with `ell <= 1`. -/
theorem vector_eq (f : Modes) : vector f 0 = (f 0 0).re / √(4 * π) ∧ vector f 1 = ((f 1 (-1)).re - (f 1 1).re) / √6 / √(4 * π) ∧ vector f 2 = ((f 1 (-1)).im + (f 1 1).im) / √6 / √(4 * π) ∧
    vector f 3 = (f 1 0).re / √3 / √(4 * π) := by
  have hpi : π ≠ 0 := pi_ne_zero
  have r6 := root6
  have r3 := root3
  have key : ∀ b : Fin 4, vector f b = 1 / (4 * π) * ∫ θ in (0 : ℝ)..π, ∫ φ in (0 : ℝ)..(2 * π), ((f 0 0).re / √(4 * π) + √(3 / (4 * π)) * (f 1 0).re * cos θ +
    sin θ * (√(3 / (8 * π)) * ((f 1 (-1)).re - (f 1 1).re) * cos φ + √(3 / (8 * π)) * ((f 1 (-1)).im + (f 1 1).im) * sin φ)) * n θ φ b * sin θ := by
    intro b
    simp only [vector, sphere, eval_re]
  generalize hA : (f 0 0).re / √(4 * π) = A at key ⊢
  generalize hB : √(3 / (4 * π)) * (f 1 0).re = B at key
  generalize hC : √(3 / (8 * π)) * ((f 1 (-1)).re - (f 1 1).re) = C at key
  generalize hD : √(3 / (8 * π)) * ((f 1 (-1)).im + (f 1 1).im) = D at key
  refine ⟨?_, ?_, ?_, ?_⟩
  · have h1 : ∀ θ : ℝ, (∫ φ in (0 : ℝ)..(2 * π), (A + B * cos θ + sin θ * (C * cos φ + D * sin φ)) * n θ φ 0 * sin θ) = 2 * π * A * sin θ + 2 * π * B * (sin θ * cos θ) + 0 * (sin θ * cos θ ^ 2) + 0 * sin θ ^ 3 := by
      intro θ
      rw [show 2 * π * A * sin θ + 2 * π * B * (sin θ * cos θ) + 0 * (sin θ * cos θ ^ 2) + 0 * sin θ ^ 3 = 2 * π * ((A + B * cos θ) * sin θ) + π * 0 + π * 0 by ring,
        ← inner ((A + B * cos θ) * sin θ) (C * sin θ ^ 2) (D * sin θ ^ 2) 0 0 0]
      congr 1
      funext φ
      simp [n]
      ring
    rw [key 0]
    simp only [h1]
    rw [outer]
    field_simp
    ring
  · have h1 : ∀ θ : ℝ, (∫ φ in (0 : ℝ)..(2 * π), (A + B * cos θ + sin θ * (C * cos φ + D * sin φ)) * n θ φ 1 * sin θ) = 0 * sin θ + 0 * (sin θ * cos θ) + 0 * (sin θ * cos θ ^ 2) + π * C * sin θ ^ 3 := by
      intro θ
      rw [show 0 * sin θ + 0 * (sin θ * cos θ) + 0 * (sin θ * cos θ ^ 2) + π * C * sin θ ^ 3 = 2 * π * 0 + π * (C * sin θ ^ 3) + π * 0 by ring,
        ← inner 0 ((A + B * cos θ) * sin θ ^ 2) 0 (C * sin θ ^ 3) 0 (D * sin θ ^ 3)]
      congr 1
      funext φ
      simp [n]
      ring
    rw [key 1]
    simp only [h1]
    rw [outer, ← hC]
    have : ((f 1 (-1)).re - (f 1 1).re) / √6 / √(4 * π) = (1 / (√6 * √(4 * π))) * ((f 1 (-1)).re - (f 1 1).re) := by
      rw [div_div]
      ring
    rw [this, ← r6]
    field_simp
    ring
  · have h1 : ∀ θ : ℝ, (∫ φ in (0 : ℝ)..(2 * π), (A + B * cos θ + sin θ * (C * cos φ + D * sin φ)) * n θ φ 2 * sin θ) = 0 * sin θ + 0 * (sin θ * cos θ) + 0 * (sin θ * cos θ ^ 2) + π * D * sin θ ^ 3 := by
      intro θ
      rw [show 0 * sin θ + 0 * (sin θ * cos θ) + 0 * (sin θ * cos θ ^ 2) + π * D * sin θ ^ 3 = 2 * π * 0 + π * 0 + π * (D * sin θ ^ 3) by ring,
        ← inner 0 0 ((A + B * cos θ) * sin θ ^ 2) 0 (D * sin θ ^ 3) (C * sin θ ^ 3)]
      congr 1
      funext φ
      simp [n]
      ring
    rw [key 2]
    simp only [h1]
    rw [outer, ← hD]
    have : ((f 1 (-1)).im + (f 1 1).im) / √6 / √(4 * π) = (1 / (√6 * √(4 * π))) * ((f 1 (-1)).im + (f 1 1).im) := by
      rw [div_div]
      ring
    rw [this, ← r6]
    field_simp
    ring
  · have h1 : ∀ θ : ℝ, (∫ φ in (0 : ℝ)..(2 * π), (A + B * cos θ + sin θ * (C * cos φ + D * sin φ)) * n θ φ 3 * sin θ) = 0 * sin θ + 2 * π * A * (sin θ * cos θ) + 2 * π * B * (sin θ * cos θ ^ 2) + 0 * sin θ ^ 3 := by
      intro θ
      rw [show 0 * sin θ + 2 * π * A * (sin θ * cos θ) + 2 * π * B * (sin θ * cos θ ^ 2) + 0 * sin θ ^ 3 = 2 * π * ((A + B * cos θ) * (sin θ * cos θ)) + π * 0 + π * 0 by ring,
        ← inner ((A + B * cos θ) * (sin θ * cos θ)) (C * sin θ ^ 2 * cos θ) (D * sin θ ^ 2 * cos θ) 0 0 0]
      congr 1
      funext φ
      simp [n]
      ring
    rw [key 3]
    simp only [h1]
    rw [outer, ← hB]
    have : (f 1 0).re / √3 / √(4 * π) = (1 / (√3 * √(4 * π))) * (f 1 0).re := by
      rw [div_div]
      ring
    rw [this, ← r3]
    field_simp
    ring

/-- C34: `charge_vector_from_aspect` is `(1/4π) ∫ Re a (1, r) dΩ`. -/
theorem chargeVector_spec (f : Modes) : chargeVectorFromAspect (view1 f) = .ok (List.ofFn (vector f)) := by
  obtain ⟨h0, h1, h2, h3⟩ := vector_eq f
  have : List.ofFn (vector f) = [vector f 0, vector f 1, vector f 2, vector f 3] := by simp [List.ofFn_succ]
  rw [this, h0, h1, h2, h3]
  simp [chargeVectorFromAspect, view1, pyGet, ok_bind, pure_eq_ok]

/-- The vector depends linearly on the aspect. -/
theorem vector_linear (f g : Modes) (c : ℝ) (b : Fin 4) : vector (fun ell m => f ell m + c * g ell m) b = vector f b + c * vector g b := by
  obtain ⟨h0, h1, h2, h3⟩ := vector_eq (fun ell m => f ell m + c * g ell m)
  obtain ⟨f0, f1, f2, f3⟩ := vector_eq f
  obtain ⟨g0, g1, g2, g3⟩ := vector_eq g
  fin_cases b
  · exact h0.trans (by simp [f0, g0]; ring)
  · exact h1.trans (by simp [f1, g1]; ring)
  · exact h2.trans (by simp [f2, g2]; ring)
  · exact h3.trans (by simp [f3, g3]; ring)

/-- C34: an aspect whose real part is `v0 + v·r` (plus anything with larger `ell`) has the vector `(v0, v / 3)`: the components of the constant and of the direction. -/
theorem vector_affine (f : Modes) (v0 v1 v2 v3 : ℝ) (h : ∀ θ φ, (eval f θ φ).re = v0 * n θ φ 0 + v1 * n θ φ 1 + v2 * n θ φ 2 + v3 * n θ φ 3) :
    chargeVectorFromAspect (view1 f) = .ok [v0, v1 / 3, v2 / 3, v3 / 3] := by
  rw [chargeVector_spec]
  obtain ⟨h0, h1, h2, h3⟩ := vector_eq f
  have : List.ofFn (vector f) = [vector f 0, vector f 1, vector f 2, vector f 3] := by simp [List.ofFn_succ]
  rw [this, h0, h1, h2, h3]
  have r6 := root6
  have r3 := root3
  have a := h 0 0
  have b := h π 0
  have c := h (π / 2) 0
  have d := h (π / 2) (π / 2)
  simp only [eval_re] at a b c d
  rw [div_div, div_div, div_div, div_eq_mul_one_div (_ - _), div_eq_mul_one_div (_ + _), div_eq_mul_one_div _ (√3 * _), ← r6, ← r3]
  generalize (f 0 0).re / √(4 * π) = A at *
  have eB : (f 1 0).re * (√(3 / (4 * π)) / 3) = (√(3 / (4 * π)) * (f 1 0).re) / 3 := by ring
  have eC : ((f 1 (-1)).re - (f 1 1).re) * (√(3 / (8 * π)) / 3) = (√(3 / (8 * π)) * ((f 1 (-1)).re - (f 1 1).re)) / 3 := by ring
  have eD : ((f 1 (-1)).im + (f 1 1).im) * (√(3 / (8 * π)) / 3) = (√(3 / (8 * π)) * ((f 1 (-1)).im + (f 1 1).im)) / 3 := by ring
  rw [eB, eC, eD]
  generalize √(3 / (4 * π)) * (f 1 0).re = B at a b c d ⊢
  generalize √(3 / (8 * π)) * ((f 1 (-1)).re - (f 1 1).re) = C at a b c d ⊢
  generalize √(3 / (8 * π)) * ((f 1 (-1)).im + (f 1 1).im) = D at a b c d ⊢
  simp [n] at a b c d
  have hA : A = v0 := by linarith
  have hB : B = v3 := by linarith
  have hC : C = v1 := by linarith
  have hD : D = v2 := by linarith
  rw [hA, hB, hC, hD]

/-- Every such real part occurs. -/
example (v0 v1 v2 v3 : ℝ) : ∃ f : Modes, ∀ θ φ, (eval f θ φ).re = v0 * n θ φ 0 + v1 * n θ φ 1 + v2 * n θ φ 2 + v3 * n θ φ 3 := by
  refine ⟨fun ell m => if ell = 0 then (√(4 * π) * v0 : ℝ) else if m = 0 then (v3 / √(3 / (4 * π)) : ℝ) else if m = -1 then ⟨v1 / √(3 / (8 * π)), v2 / √(3 / (8 * π))⟩ else 0, fun θ φ => ?_⟩
  have h1 : √(4 * π) ≠ 0 := by positivity
  have h2 : √(3 / (4 * π)) ≠ 0 := by positivity
  have h3 : √(3 / (8 * π)) ≠ 0 := by positivity
  rw [eval_re]
  generalize √(4 * π) = r1 at *
  generalize √(3 / (4 * π)) = r2 at *
  generalize √(3 / (8 * π)) = r3 at *
  simp [n, h1, h2, h3, mul_div_cancel₀]
  ring

/-- Only the weights with `ell <= 1` matter. -/
theorem vector_congr (f g : Modes) (h : ∀ ell m, ell ≤ 1 → f ell m = g ell m) (b : Fin 4) : vector f b = vector g b := by
  have : eval f = eval g := by
    funext θ φ
    simp [eval, h 0 0 (by decide), h 1 (-1) (by decide), h 1 0 (by decide), h 1 1 (by decide)]
  simp [vector, this]

/-- The real part has the same vector. -/
theorem vector_re (f : Modes) (b : Fin 4) : vector (re f) b = vector f b := by
  obtain ⟨h0, h1, h2, h3⟩ := vector_eq (re f)
  obtain ⟨f0, f1, f2, f3⟩ := vector_eq f
  have e0 : (re f 0 0).re = (f 0 0).re := by simp [re, bar]
  have e1 : (re f 1 (-1)).re - (re f 1 1).re = (f 1 (-1)).re - (f 1 1).re := by
    simp [re, bar]
    ring
  have e2 : (re f 1 (-1)).im + (re f 1 1).im = (f 1 (-1)).im + (f 1 1).im := by
    simp [re, bar]
    ring
  have e3 : (re f 1 0).re = (f 1 0).re := by simp [re, bar]
  fin_cases b
  · exact h0.trans (by rw [e0]; exact f0.symm)
  · exact h1.trans (by rw [e1]; exact f1.symm)
  · exact h2.trans (by rw [e2]; exact f2.symm)
  · exact h3.trans (by rw [e3]; exact f3.symm)

/-- `bar` twice is the identity for spin weight 0. -/
theorem bar_bar (f : Modes) : bar 0 (bar 0 f) = f := by
  funext ell m
  simp only [bar, zero_add, Int.natAbs_neg, neg_neg, map_mul, map_pow, map_neg, map_one, Complex.conj_conj, ← mul_assoc, ← mul_pow]
  simp

theorem bar_re (f : Modes) : bar 0 (re f) = re f := by
  have h := bar_bar f
  funext ell m
  have h1 : bar 0 (re f) ell m = (bar 0 f ell m + bar 0 (bar 0 f) ell m) / 2 := by
    simp only [bar, re, zero_add, map_div₀, map_add, map_ofNat]
    ring
  rw [h1, h, re, add_comm]

/-- C34: the mass aspect is a real function, whatever the truncation. -/
theorem massAspect_real (mul : Int → Int → Modes → Modes → Modes) (dflt : Int) (d : Abd) (tr : Trunc) : bar 0 (massAspect mul dflt d tr) = massAspect mul dflt d tr := by
  have h : ∀ f : Modes, bar 0 (fun ell m => -(re f ell m)) = fun ell m => -(re f ell m) := by
    intro f
    have := bar_re f
    funext ell m
    have h1 := congrFun (congrFun this ell) m
    rw [← h1]
    simp [bar]
  unfold massAspect
  split
  · exact h _
  · split
    · exact h _
    · exact h _

/-- C34: the Bondi four-momentum is `-(1/4π) ∫ Re(ψ₂ + σ ∂ₜσ̄) (1, r) dΩ`. -/
theorem four_momentum_spec (mul : Int → Int → Modes → Modes → Modes) (dflt : Int) (d : Abd) :
    bondiFourMomentum mul dflt d = .ok (List.ofFn fun b => -vector (fun ell m => d.psi2 ell m + mul 2 (-2) d.sigma (bar 2 d.sigmaDot) ell m) b) := by
  rw [bondiFourMomentum, chargeVector_spec]
  congr 2
  funext b
  have h1 : massAspect mul dflt d (.int 1) = fun ell m => (fun _ _ => (0 : ℂ)) ell m + ((-1 : ℝ) : ℂ) * re (fun ell m => truncateEll 1 d.psi2 ell m + truncateEll 1 (mul 2 (-2) d.sigma (bar 2 d.sigmaDot)) ell m) ell m := by
    funext ell m
    simp [massAspect]
  have h0 : vector (fun _ _ => (0 : ℂ)) b = 0 := by simp [vector, eval, sphere]
  rw [h1, vector_linear, vector_re, h0, vector_congr _ (fun ell m => d.psi2 ell m + mul 2 (-2) d.sigma (bar 2 d.sigmaDot) ell m) (fun ell m h => by simp [truncateEll, h])]
  ring

/-- C34: the rest mass is the non-negative root of the Minkowski square of the momentum; it is `nan` exactly when the momentum is spacelike. -/
theorem rest_mass_spec (mul : Int → Int → Modes → Modes → Modes) (dflt : Int) (d : Abd) : ∃ P : Fin 4 → ℝ, bondiFourMomentum mul dflt d = .ok (List.ofFn P) ∧
    ((bondiRestMass mul dflt d = .ok none ∧ P 0 ^ 2 < P 1 ^ 2 + P 2 ^ 2 + P 3 ^ 2) ∨ ∃ m, bondiRestMass mul dflt d = .ok (some m) ∧ 0 ≤ m ∧ m ^ 2 = P 0 ^ 2 - (P 1 ^ 2 + P 2 ^ 2 + P 3 ^ 2)) := by
  have h := four_momentum_spec mul dflt d
  generalize hP : (fun b => -vector (fun ell m => d.psi2 ell m + mul 2 (-2) d.sigma (bar 2 d.sigmaDot) ell m) b) = P at h
  refine ⟨P, h, ?_⟩
  have hl : List.ofFn P = [P 0, P 1, P 2, P 3] := by simp [List.ofFn_succ]
  have hg : pyGet [P 0, P 1, P 2, P 3] 0 = .ok (P 0) := rfl
  have hm : bondiRestMass mul dflt d = .ok (if P 0 ^ 2 - (P 1 ^ 2 + (P 2 ^ 2 + P 3 ^ 2)) < 0 then none else some (√(P 0 ^ 2 - (P 1 ^ 2 + (P 2 ^ 2 + P 3 ^ 2))))) := by
    simp [bondiRestMass, h, ok_bind, hg, pure_eq_ok]
  rw [hm]
  by_cases hx : P 0 ^ 2 - (P 1 ^ 2 + (P 2 ^ 2 + P 3 ^ 2)) < 0
  · left
    rw [if_pos hx]
    exact ⟨rfl, by linarith⟩
  · right
    rw [if_neg hx]
    refine ⟨_, rfl, sqrt_nonneg _, ?_⟩
    rw [sq_sqrt (not_lt.mp hx)]
    ring

theorem ethGHP_one (f : Modes) (m : Int) : ethGHP 0 f 1 m = f 1 m := by simp [ethGHP]

/-- The spatial part of the vector is the same for a function and its derivative `ð`. -/
theorem vector_eth (f : Modes) (b : Fin 3) : vector (ethGHP 0 f) b.succ = vector f b.succ := by
  obtain ⟨h0, h1, h2, h3⟩ := vector_eq (ethGHP 0 f)
  obtain ⟨f0, f1, f2, f3⟩ := vector_eq f
  simp only [ethGHP_one] at h1 h2 h3
  fin_cases b
  · exact h1.trans f1.symm
  · exact h2.trans f2.symm
  · exact h3.trans f3.symm

/-- C34: the center-of-mass charge is the boost charge plus time times the momentum. -/
theorem CoM_spec (mul : Int → Int → Modes → Modes → Modes) (dflt : Int) (d : Abd) : ∃ (G N : Fin 3 → ℝ) (P : Fin 4 → ℝ), bondiCoMCharge mul d = .ok (List.ofFn G) ∧ bondiBoostCharge mul d = .ok (List.ofFn N) ∧
    bondiFourMomentum mul dflt d = .ok (List.ofFn P) ∧ ∀ i, G i = N i + d.t * P i.succ := by
  have hdrop : ∀ v : Fin 4 → ℝ, (List.ofFn v).drop 1 = List.ofFn fun i : Fin 3 => v i.succ := by
    intro v
    simp [List.ofFn_succ]
  obtain ⟨G, hG⟩ : ∃ G : Fin 4 → ℝ, G = vector fun ell m => -(truncateEll 1 d.psi1 ell m + truncateEll 1 (mul 2 (-1) d.sigma (ethGHP (-2) (bar 2 d.sigma))) ell m
    + 0.5 * ethGHP 0 (truncateEll 1 (mul 2 (-2) d.sigma (bar 2 d.sigma))) ell m) := ⟨_, rfl⟩
  obtain ⟨N, hN⟩ : ∃ N : Fin 4 → ℝ, N = vector fun ell m => -(truncateEll 1 d.psi1 ell m + truncateEll 1 (mul 2 (-1) d.sigma (ethGHP (-2) (bar 2 d.sigma))) ell m
    + 0.5 * ethGHP 0 (truncateEll 1 (mul 2 (-2) d.sigma (bar 2 d.sigma))) ell m
    - d.t * ethGHP 0 (re fun ell m => truncateEll 1 d.psi2 ell m + truncateEll 1 (mul 2 (-2) d.sigma (bar 2 d.sigmaDot)) ell m) ell m) := ⟨_, rfl⟩
  refine ⟨fun i => G i.succ, fun i => N i.succ, _, ?_, ?_, four_momentum_spec mul dflt d, ?_⟩
  · rw [bondiCoMCharge, chargeVector_spec, ok_bind, pure_eq_ok, hdrop, hG]
  · rw [bondiBoostCharge, chargeVector_spec, ok_bind, pure_eq_ok, hdrop, hN]
  · intro i
    simp only [hG, hN]
    set X : Modes := fun ell m => -(truncateEll 1 d.psi1 ell m + truncateEll 1 (mul 2 (-1) d.sigma (ethGHP (-2) (bar 2 d.sigma))) ell m + 0.5 * ethGHP 0 (truncateEll 1 (mul 2 (-2) d.sigma (bar 2 d.sigma))) ell m) with hX
    set Y : Modes := fun ell m => truncateEll 1 d.psi2 ell m + truncateEll 1 (mul 2 (-2) d.sigma (bar 2 d.sigmaDot)) ell m with hY
    have h1 : (fun ell m => -(truncateEll 1 d.psi1 ell m + truncateEll 1 (mul 2 (-1) d.sigma (ethGHP (-2) (bar 2 d.sigma))) ell m + 0.5 * ethGHP 0 (truncateEll 1 (mul 2 (-2) d.sigma (bar 2 d.sigma))) ell m
        - d.t * ethGHP 0 (re Y) ell m)) = fun ell m => X ell m + (d.t : ℂ) * ethGHP 0 (re Y) ell m := by
      funext ell m
      rw [hX]
      ring
    rw [h1, vector_linear, vector_eth, vector_re]
    have h2 : vector Y i.succ = vector (fun ell m => d.psi2 ell m + mul 2 (-2) d.sigma (bar 2 d.sigmaDot) ell m) i.succ := vector_congr _ _ (fun ell m h => by simp [hY, truncateEll, h]) _
    rw [h2]
    ring

/-- C34: the angular momentum is `(1/4π) ∫ Re(i (ψ₁ + σ ðσ̄)) r dΩ` with the weights of the aspect as given (those of spin weight 1), and the center-of-mass charge the same with `-1` for `i` and half the derivative of `|σ|²`. -/
theorem angular_momentum_spec (mul : Int → Int → Modes → Modes → Modes) (d : Abd) :
    bondiAngularMomentum mul d = .ok (List.ofFn fun i : Fin 3 => vector (fun ell m => Complex.I * (d.psi1 ell m + mul 2 (-1) d.sigma (ethGHP (-2) (bar 2 d.sigma)) ell m)) i.succ) ∧
    bondiCoMCharge mul d = .ok (List.ofFn fun i : Fin 3 => -(vector (fun ell m => d.psi1 ell m + mul 2 (-1) d.sigma (ethGHP (-2) (bar 2 d.sigma)) ell m) i.succ + vector (mul 2 (-2) d.sigma (bar 2 d.sigma)) i.succ / 2)) := by
  have hdrop : ∀ v : Fin 4 → ℝ, (List.ofFn v).drop 1 = List.ofFn fun i : Fin 3 => v i.succ := by
    intro v
    simp [List.ofFn_succ]
  constructor
  · rw [bondiAngularMomentum, chargeVector_spec, ok_bind, pure_eq_ok, hdrop]
    congr 2
  · rw [bondiCoMCharge, chargeVector_spec, ok_bind, pure_eq_ok, hdrop]
    congr 2
    funext i
    have h1 : (fun ell m => -(truncateEll 1 d.psi1 ell m + truncateEll 1 (mul 2 (-1) d.sigma (ethGHP (-2) (bar 2 d.sigma))) ell m + 0.5 * ethGHP 0 (truncateEll 1 (mul 2 (-2) d.sigma (bar 2 d.sigma))) ell m))
        = fun ell m => (fun ell m => (fun _ _ => (0 : ℂ)) ell m + ((-1 : ℝ) : ℂ) * (fun ell m => truncateEll 1 d.psi1 ell m + truncateEll 1 (mul 2 (-1) d.sigma (ethGHP (-2) (bar 2 d.sigma))) ell m) ell m) ell m
          + ((-1 / 2 : ℝ) : ℂ) * ethGHP 0 (truncateEll 1 (mul 2 (-2) d.sigma (bar 2 d.sigma))) ell m := by
      funext ell m
      push_cast
      ring
    have h0 : ∀ b, vector (fun _ _ => (0 : ℂ)) b = 0 := by simp [vector, eval, sphere]
    have h2 : vector (fun ell m => truncateEll 1 d.psi1 ell m + truncateEll 1 (mul 2 (-1) d.sigma (ethGHP (-2) (bar 2 d.sigma))) ell m) i.succ
        = vector (fun ell m => d.psi1 ell m + mul 2 (-1) d.sigma (ethGHP (-2) (bar 2 d.sigma)) ell m) i.succ := vector_congr _ _ (fun ell m h => by simp [truncateEll, h]) _
    have h3 : vector (truncateEll 1 (mul 2 (-2) d.sigma (bar 2 d.sigma))) i.succ = vector (mul 2 (-2) d.sigma (bar 2 d.sigma)) i.succ := vector_congr _ _ (fun ell m h => by simp [truncateEll, h]) _
    rw [h1, vector_linear, vector_linear, vector_eth, h0, h2, h3]
    ring

/-- The truncation of the mass aspect at an integer other than 0 is as documented ... -/
theorem massAspect_truncated_partial (mul : Int → Int → Modes → Modes → Modes) (dflt : Int) (d : Abd) (n : Int) (hn : n ≠ 0) (ell m : Int) :
    massAspect mul dflt d (.int n) ell m = if ell ≤ n then massAspect mul dflt d (.callable n) ell m else 0 := by
  simp only [massAspect, if_pos hn, re, bar, truncateEll]
  by_cases h : ell ≤ n <;> simp [h]

/-- ... but with 0, which is false, nothing is truncated to `ell = 0`. -/
theorem massAspect_zero_not_truncated : ∃ (mul : Int → Int → Modes → Modes → Modes) (d : Abd), massAspect mul 8 d (.int 0) 1 0 ≠ 0 := by
  refine ⟨fun _ _ _ _ _ _ => 0, ⟨0, fun _ _ => 0, fun _ _ => 1, fun _ _ => 0, fun _ _ => 0⟩, ?_⟩
  simp [massAspect, re, bar, truncateEll]

/-! ## The spin -/

/-- C34: for a timelike momentum, `M²` times the dimensionless spin, times the mass, is the spatial part of the Pauli-Lubanski vector `(J·P, E J + P × N)` after the boost to the rest frame
(so it does not change under translations and boosts): written with the momentum and without any division. -/
theorem spin_pauli_lubanski (N J p : Fin 3 → ℝ) (E mass : ℝ) (hE : 0 < E) (hm : 0 < mass) (hmass : mass ^ 2 = E ^ 2 - ∑ i, p i ^ 2) (i : Fin 3) :
    mass ^ 2 * mass * dimensionlessSpin N J E p i =
      E * J i + ![p 1 * N 2 - p 2 * N 1, p 2 * N 0 - p 0 * N 2, p 0 * N 1 - p 1 * N 0] i - (∑ i, J i * p i) / (E + mass) * p i := by
  have hs : ∑ i, p i ^ 2 = E ^ 2 - mass ^ 2 := by linarith
  have hEm : E + mass ≠ 0 := by positivity
  have hv2 : ∑ i, (p i / E) ^ 2 = 1 - (mass / E) ^ 2 := by
    simp only [div_pow, ← Finset.sum_div, hs]
    field_simp
  have hv0 : 0 ≤ ∑ i, (p i / E) ^ 2 := Finset.sum_nonneg fun i _ => sq_nonneg _
  have hg : 1 / √(1 - √(∑ i, (p i / E) ^ 2) ^ 2) = E / mass := by
    rw [sq_sqrt hv0, hv2, sub_sub_cancel, sqrt_sq (by positivity), one_div_div]
  have hcross : ![p 1 / E * N 2 - p 2 / E * N 1, p 2 / E * N 0 - p 0 / E * N 2, p 0 / E * N 1 - p 1 / E * N 0] i = ![p 1 * N 2 - p 2 * N 1, p 2 * N 0 - p 0 * N 2, p 0 * N 1 - p 1 * N 0] i / E := by
    fin_cases i <;> simp <;> ring
  unfold dimensionlessSpin
  simp only
  rw [hg, hcross, ← hmass]
  generalize ![p 1 * N 2 - p 2 * N 1, p 2 * N 0 - p 0 * N 2, p 0 * N 1 - p 1 * N 0] i = x
  by_cases hz : √(∑ i, (p i / E) ^ 2) ≠ 0
  · rw [if_pos hz]
    have hz2 : √(∑ i, (p i / E) ^ 2) ^ 2 = (E - mass) * (E + mass) / E ^ 2 := by
      rw [sq_sqrt hv0, hv2]
      field_simp
      ring
    generalize √(∑ i, (p i / E) ^ 2) = w at hz hz2
    have hsum : ∑ i, J i * (p i / E / w) = (∑ i, J i * p i) / (E * w) := by
      rw [Finset.sum_div]
      exact Finset.sum_congr rfl fun j _ => by field_simp
    rw [hsum]
    generalize ∑ i, J i * p i = y
    have hw : w ^ 2 ≠ 0 := pow_ne_zero 2 hz
    have hEm' : E - mass ≠ 0 := by
      intro h0
      rw [h0, zero_mul, zero_div] at hz2
      exact hw hz2
    have e1 : y / (E * w) * (p i / E / w) = y * p i / ((E - mass) * (E + mass)) := by
      rw [div_div, div_mul_div_comm, show E * w * (E * w) = E ^ 2 * w ^ 2 by ring, hz2]
      field_simp
    have e2 : mass ^ 2 * mass * ((E / mass * (J i + x / E) - (E / mass - 1) * (y / (E * w)) * (p i / E / w)) / mass ^ 2) = mass * (E / mass * (J i + x / E) - (E / mass - 1) * (y / (E * w) * (p i / E / w))) := by
      field_simp
    rw [e2, e1]
    field_simp
  · rw [if_neg hz]
    have h0 : ∑ i, (p i / E) ^ 2 = 0 := by
      have := not_not.mp hz
      rwa [sqrt_eq_zero hv0] at this
    have hp : ∀ j, p j = 0 := by
      intro j
      have := (Finset.sum_eq_zero_iff_of_nonneg (fun i _ => sq_nonneg (p i / E))).mp h0 j (Finset.mem_univ j)
      have := pow_eq_zero_iff (two_ne_zero) |>.mp this
      rcases div_eq_zero_iff.mp this with h | h
      · exact h
      · exact absurd h hE.ne'
    simp only [hp]
    field_simp
    simp
    ring

/-- The hypotheses are met, with a motion: energy 5, momentum 3 along x, mass 4. -/
example : (0 : ℝ) < 5 ∧ (0 : ℝ) < 4 ∧ (4 : ℝ) ^ 2 = 5 ^ 2 - ∑ i, (![3, 0, 0] : Fin 3 → ℝ) i ^ 2 := by
  simp [Fin.sum_univ_three]
  norm_num

/-- The momentum is not always zero: a `ψ₂` with only the weight `ell = m = 0`, equal to `-√(4π)`, has unit mass. -/
example : ∃ d : Abd, ∀ mul, (∀ s t f g, mul s t f g = fun _ _ => 0) → bondiFourMomentum mul 8 d = .ok [1, 0, 0, 0] := by
  refine ⟨⟨0, fun _ _ => 0, fun ell m => if ell = 0 ∧ m = 0 then -(√(4 * π) : ℝ) else 0, fun _ _ => 0, fun _ _ => 0⟩, fun mul h => ?_⟩
  have hpi : √(4 * π) ≠ 0 := by positivity
  rw [four_momentum_spec, h]
  obtain ⟨h0, h1, h2, h3⟩ := vector_eq fun ell m => (if ell = 0 ∧ m = 0 then -((√(4 * π) : ℝ) : ℂ) else 0) + 0
  simp only [List.ofFn_succ, List.ofFn_zero]
  simp only [Fin.succ_zero_eq_one, Fin.succ_one_eq_two, show (Fin.succ (2 : Fin 3)) = (3 : Fin 4) from rfl]
  rw [h0, h1, h2, h3]
  generalize √(4 * π) = r at hpi
  simp [hpi]

/-! ## The supermomentum -/

/-- The names that are accepted. -/
def names : List String := ["bondi-sachs", "bs", "moreschi", "m", "geroch", "g", "geroch-winicour", "gw"]

/-- Anything else raises a `ValueError`. -/
theorem supermomentum_unknown (prod : Modes) (d : Abd) (s : String) (b : Bool) (h : s ∉ names) : supermomentum prod d s b = .error .valueError := by
  simp only [names, List.mem_cons, List.not_mem_nil, or_false, not_or] at h
  obtain ⟨h1, h2, h3, h4, h5, h6, h7, h8⟩ := h
  simp [supermomentum, supermomentumDensity, *]

theorem eth_eth_low (f : Modes) (ell m : Int) (h0 : 0 ≤ ell) (h1 : ell ≤ 1) : ethGHP (-1) (ethGHP (-2) f) ell m = 0 := by
  have : ell = 0 ∨ ell = 1 := by omega
  rcases this with rfl | rfl <;> simp [ethGHP]

theorem ethbar_ethbar_low (f : Modes) (ell m : Int) (h0 : 0 ≤ ell) (h1 : ell ≤ 1) : ethbarGHP 1 (ethbarGHP 2 f) ell m = 0 := by
  have : ell = 0 ∨ ell = 1 := by omega
  rcases this with rfl | rfl <;> simp [ethbarGHP]

/-- C34: all definitions agree for `ell <= 1`, so they give the same four-momentum. -/
theorem supermomentum_low (prod : Modes) (d : Abd) (s : String) (hs : s ∈ names) : ∃ f, supermomentum prod d s false = .ok f ∧ ∀ ell m, 0 ≤ ell → ell ≤ 1 → f ell m = d.psi2 ell m + prod ell m := by
  have hg : ∀ f, supermomentumDensity prod d s = .ok f → supermomentum prod d s false = .ok f := by
    intro f h
    simp [supermomentum, h, ok_bind, pure_eq_ok]
  have key : ∃ f, supermomentumDensity prod d s = .ok f ∧ ∀ ell m, 0 ≤ ell → ell ≤ 1 → f ell m = d.psi2 ell m + prod ell m := by
    simp only [names, List.mem_cons, List.not_mem_nil, or_false] at hs
    rcases hs with rfl | rfl | rfl | rfl | rfl | rfl | rfl | rfl <;>
    exact ⟨_, rfl, fun ell m h0 h1 => by simp [eth_eth_low _ ell m h0 h1, ethbar_ethbar_low _ ell m h0 h1]⟩
  obtain ⟨f, h1, h2⟩ := key
  exact ⟨f, hg f h1, h2⟩

/-- C34: the weight `ell = m = 0` of the integrated supermomentum is the Bondi energy, for each definition (the product being the same in both). -/
theorem integrated_energy (mul : Int → Int → Modes → Modes → Modes) (dflt : Int) (d : Abd) (s : String) (hs : s ∈ names) : ∃ f P,
    supermomentum (mul 2 (-2) d.sigma (bar 2 d.sigmaDot)) d s true = .ok f ∧ bondiFourMomentum mul dflt d = .ok P ∧ pyGet P 0 = .ok (f 0 0).re := by
  obtain ⟨g, h1, h2⟩ := supermomentum_low (mul 2 (-2) d.sigma (bar 2 d.sigmaDot)) d s hs
  have hd : supermomentumDensity (mul 2 (-2) d.sigma (bar 2 d.sigmaDot)) d s = .ok g := by
    rcases hx : supermomentumDensity (mul 2 (-2) d.sigma (bar 2 d.sigmaDot)) d s with e | x
    · simp [supermomentum, hx] at h1
    · simpa [supermomentum, hx, ok_bind, pure_eq_ok] using h1
  refine ⟨fun ell m => -0.5 * bar 0 g ell m / (√Real.pi : ℝ), _, ?_, four_momentum_spec mul dflt d, ?_⟩
  · simp [supermomentum, hd, ok_bind, pure_eq_ok]
  · obtain ⟨v0, -, -, -⟩ := vector_eq fun ell m => d.psi2 ell m + mul 2 (-2) d.sigma (bar 2 d.sigmaDot) ell m
    refine pyGet_nat (i := 0) ?_
    rw [List.ofFn_succ, List.getElem?_cons_zero, v0, ← h2 0 0 (by decide) (by decide)]
    have h4 : √(4 * π) = 2 * √π := by
      rw [sqrt_mul (by norm_num), show (4 : ℝ) = 2 ^ 2 by norm_num, sqrt_sq (by norm_num)]
    have hp : √π ≠ 0 := by positivity
    have : -0.5 * bar 0 g 0 0 / ((√π : ℝ) : ℂ) = (((1 : ℝ) / (2 * √π) : ℝ) : ℂ) * -(starRingEnd ℂ (g 0 0)) := by
      have hc : ((√π : ℝ) : ℂ) ≠ 0 := by exact_mod_cast hp
      simp only [bar]
      push_cast
      field_simp
      norm_num
      ring
    simp only [this, h4]
    congr 1
    rw [Complex.re_ofReal_mul]
    simp
    field_simp

/-- Geroch's definition is the mean of those of Moreschi and of Geroch and Winicour. -/
theorem geroch_mean (prod : Modes) (d : Abd) : ∃ f g h, supermomentum prod d "geroch" false = .ok f ∧ supermomentum prod d "moreschi" false = .ok g ∧ supermomentum prod d "geroch-winicour" false = .ok h ∧
    ∀ ell m, f ell m = (g ell m + h ell m) / 2 :=
  ⟨_, _, _, rfl, rfl, rfl, fun ell m => by
    simp
    ring⟩

end Verif.Props.Charges
