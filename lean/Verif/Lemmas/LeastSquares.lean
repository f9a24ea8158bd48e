import Verif.Spec.Extrapolate
import Mathlib.LinearAlgebra.Lagrange
import Mathlib.Analysis.InnerProductSpace.Projection.FiniteDimensional
import Mathlib.Analysis.InnerProductSpace.PiL2

/-!
# Least-squares fits by polynomials
-/

namespace Verif.Spec.Extrapolate
open ComplexConjugate

theorem poly_add {N : Nat} (c d : Fin (N + 1) → ℂ) (x : ℝ) : poly (c + d) x = poly c x + poly d x := by
  unfold poly
  rw [← Finset.sum_add_distrib]
  exact Finset.sum_congr rfl fun k _ => by rw [Pi.add_apply]; ring

theorem poly_smul {N : Nat} (a : ℂ) (c : Fin (N + 1) → ℂ) (x : ℝ) : poly (a • c) x = a * poly c x := by
  unfold poly
  rw [Finset.mul_sum]
  exact Finset.sum_congr rfl fun k _ => by rw [Pi.smul_apply, smul_eq_mul]; ring

/-- A polynomial of degree `N` that vanishes at `N + 1` different numbers is zero. -/
theorem poly_unique {N : Nat} (c : Fin (N + 1) → ℂ) (x : List ℝ) (hx : N + 1 ≤ x.toFinset.card) (h : ∀ z ∈ x, poly c z = 0) : c = 0 := by
  classical
  set p : Polynomial ℂ := ∑ k : Fin (N + 1), Polynomial.C (c k) * Polynomial.X ^ (k : Nat) with hp
  have hev : ∀ z : ℝ, p.eval (z : ℂ) = poly c z := by
    intro z; rw [hp, Polynomial.eval_finset_sum]; unfold poly
    exact Finset.sum_congr rfl fun k _ => by simp
  have hdeg : p.degree < ((N + 1 : Nat) : WithBot Nat) := by
    rw [hp]
    refine lt_of_le_of_lt (Polynomial.degree_sum_le _ _) ?_
    rw [Finset.sup_lt_iff (by exact_mod_cast WithBot.bot_lt_coe _)]
    intro k _
    refine lt_of_le_of_lt (Polynomial.degree_C_mul_X_pow_le _ _) ?_
    exact_mod_cast k.2
  have hcard : (x.toFinset.image (fun z : ℝ => (z : ℂ))).card = x.toFinset.card :=
    Finset.card_image_of_injective _ Complex.ofReal_injective
  have hz : p = 0 := by
    refine Polynomial.eq_zero_of_degree_lt_of_eval_finset_eq_zero (s := x.toFinset.image (fun z : ℝ => (z : ℂ))) ?_ ?_
    · rw [hcard]; exact lt_of_lt_of_le hdeg (by exact_mod_cast hx)
    · intro w hw
      obtain ⟨z, hz, rfl⟩ := Finset.mem_image.mp hw
      rw [hev, h z (List.mem_toFinset.mp hz)]
  funext k
  have : p.coeff k = c k := by
    rw [hp, Polynomial.finset_sum_coeff, Finset.sum_eq_single k]
    · simp
    · intro j _ hj
      rw [Polynomial.coeff_C_mul, Polynomial.coeff_X_pow, if_neg (fun h => hj (Fin.ext h.symm)), mul_zero]
    · simp
  rw [← this, hz]; simp

/-- The sum of products of the conjugate of one polynomial with the residuals of another. -/
noncomputable def against {N : Nat} (s : List (ℝ × ℂ)) (d c : Fin (N + 1) → ℂ) : ℂ := (s.map fun p => conj (poly d p.1) * (poly c p.1 - p.2)).sum

theorem squares_line {N : Nat} (s : List (ℝ × ℂ)) (c d : Fin (N + 1) → ℂ) (a : ℂ) :
    squares s (c + a • d) = squares s c + 2 * (conj a * against s d c).re + ‖a‖ ^ 2 * (s.map fun p => ‖poly d p.1‖ ^ 2).sum := by
  induction s with
  | nil => simp [squares, against]
  | cons p s ih =>
    unfold squares against at ih ⊢
    simp only [List.map_cons, List.sum_cons]
    rw [ih, poly_add, poly_smul]
    generalize poly c p.1 = u
    generalize poly d p.1 = v
    simp only [Complex.sq_norm, Complex.normSq_apply, Complex.add_re, Complex.add_im, Complex.sub_re, Complex.sub_im, Complex.mul_re, Complex.mul_im,
      Complex.conj_re, Complex.conj_im]
    ring

/-- The normal equations. -/
theorem against_eq_zero {N : Nat} (s : List (ℝ × ℂ)) (c : Fin (N + 1) → ℂ) (hmin : ∀ c' : Fin (N + 1) → ℂ, squares s c ≤ squares s c') (d : Fin (N + 1) → ℂ) :
    against s d c = 0 := by
  set z := against s d c with hz
  set B := (s.map fun p => ‖poly d p.1‖ ^ 2).sum with hB
  have hB0 : 0 ≤ B := by
    rw [hB]; apply List.sum_nonneg
    intro x hx
    obtain ⟨p, _, rfl⟩ := List.mem_map.mp hx
    positivity
  have key := hmin (c + (((-(1 / (B + 1)) : ℝ) : ℂ) * z) • d)
  rw [squares_line, ← hz, ← hB] at key
  have e1 : (conj (((-(1 / (B + 1)) : ℝ) : ℂ) * z) * z).re = -(1 / (B + 1)) * ‖z‖ ^ 2 := by
    rw [map_mul, Complex.conj_ofReal, mul_assoc, Complex.re_ofReal_mul, mul_comm (conj z), Complex.mul_conj, Complex.sq_norm]
    rw [Complex.ofReal_re]
  have e2 : ‖((-(1 / (B + 1)) : ℝ) : ℂ) * z‖ ^ 2 = (1 / (B + 1)) ^ 2 * ‖z‖ ^ 2 := by
    rw [norm_mul, Complex.norm_real, mul_pow, Real.norm_eq_abs, sq_abs, neg_sq]
  rw [e1, e2] at key
  have hpos : 0 < B + 1 := by linarith
  have hle : (1 / (B + 1)) * ‖z‖ ^ 2 * (2 - B / (B + 1)) ≤ 0 := by
    have : (1 / (B + 1)) ^ 2 * ‖z‖ ^ 2 * B = (1 / (B + 1)) * ‖z‖ ^ 2 * (B / (B + 1)) := by ring
    nlinarith
  have hfac : 0 < 2 - B / (B + 1) := by
    have : B / (B + 1) < 1 := by rw [div_lt_one hpos]; linarith
    linarith
  have hz2 : ‖z‖ ^ 2 ≤ 0 := by
    by_contra hn
    push Not at hn
    have : 0 < (1 / (B + 1)) * ‖z‖ ^ 2 * (2 - B / (B + 1)) := by positivity
    linarith
  have : ‖z‖ = 0 := by nlinarith [norm_nonneg z]
  exact norm_eq_zero.mp this

theorem against_sub {N : Nat} (s : List (ℝ × ℂ)) (d c c' : Fin (N + 1) → ℂ) :
    against s d c - against s d c' = (s.map fun p => conj (poly d p.1) * (poly c p.1 - poly c' p.1)).sum := by
  induction s with
  | nil => simp [against]
  | cons p s ih =>
    unfold against at ih ⊢
    simp only [List.map_cons, List.sum_cons]
    rw [← ih]; ring

theorem sum_sq_zero (s : List (ℝ × ℂ)) (f : ℝ → ℂ) (h : (s.map fun p => conj (f p.1) * f p.1).sum = 0) : ∀ p ∈ s, f p.1 = 0 := by
  have hr : (s.map fun p => ‖f p.1‖ ^ 2).sum = 0 := by
    have : ((s.map fun p => ‖f p.1‖ ^ 2).sum : ℂ) = (s.map fun p => conj (f p.1) * f p.1).sum := by
      clear h
      induction s with
      | nil => simp
      | cons p s ih =>
        simp only [List.map_cons, List.sum_cons, Complex.ofReal_add]
        rw [ih, mul_comm (conj _), Complex.mul_conj, Complex.normSq_eq_norm_sq]
    rw [h] at this
    exact_mod_cast this
  clear h
  induction s with
  | nil => simp
  | cons p s ih =>
    simp only [List.map_cons, List.sum_cons] at hr
    have hs : 0 ≤ (s.map fun p => ‖f p.1‖ ^ 2).sum := List.sum_nonneg (by
      intro x hx
      obtain ⟨q, _, rfl⟩ := List.mem_map.mp hx
      positivity)
    have hp : 0 ≤ ‖f p.1‖ ^ 2 := by positivity
    intro q hq
    rcases List.mem_cons.mp hq with rfl | hq
    · have : ‖f q.1‖ ^ 2 = 0 := by linarith
      exact norm_eq_zero.mp (pow_eq_zero_iff (by norm_num) |>.mp this)
    · exact ih (by linarith) q hq

/-- Enough different abscissas. -/
def Distinct (N : Nat) (s : List (ℝ × ℂ)) : Prop := N + 1 ≤ (s.map Prod.fst).toFinset.card

/-- The coefficients are determined by the normal equations. -/
theorem fit_unique {N : Nat} (s : List (ℝ × ℂ)) (hs : Distinct N s) (c c' : Fin (N + 1) → ℂ) (h : ∀ d, against s d c = 0) (h' : ∀ d, against s d c' = 0) :
    c = c' := by
  have hz := against_sub s (c + (-1 : ℂ) • c') c c'
  rw [h, h', sub_zero] at hz
  have hd : ∀ x, poly (c + (-1 : ℂ) • c') x = poly c x - poly c' x := by
    intro x; rw [poly_add, poly_smul]; ring
  have hz' : (s.map fun p => conj (poly (c + (-1 : ℂ) • c') p.1) * poly (c + (-1 : ℂ) • c') p.1).sum = 0 := by
    rw [hz]; congr 1
    apply List.map_congr_left
    intro p _; rw [hd]
  have hall := sum_sq_zero s _ hz'
  have := poly_unique _ (s.map Prod.fst) hs (by
    intro z hzz
    obtain ⟨p, hp, rfl⟩ := List.mem_map.mp hzz
    exact hall p hp)
  funext k
  have := congrFun this k
  simp only [Pi.add_apply, Pi.smul_apply, smul_eq_mul, Pi.zero_apply] at this
  linear_combination this

/-- Least-squares fits exist. -/
theorem exists_leastSquares : ∃ fit, LeastSquares fit := by
  have key : ∀ (s : List (ℝ × ℂ)) (N : Nat), ∃ c : Fin (N + 1) → ℂ, ∀ c' : Fin (N + 1) → ℂ, squares s c ≤ squares s c' := by
    intro s N
    let L : (Fin (N + 1) → ℂ) →ₗ[ℂ] EuclideanSpace ℂ (Fin s.length) :=
      { toFun := fun c => WithLp.toLp 2 fun i => poly c (s.get i).1
        map_add' := by intro c d; ext i; simp [poly_add]
        map_smul' := by intro a c; ext i; simp [poly_smul] }
    let y : EuclideanSpace ℂ (Fin s.length) := WithLp.toLp 2 fun i => (s.get i).2
    have hsq : ∀ c, squares s c = ‖L c - y‖ ^ 2 := by
      intro c
      rw [EuclideanSpace.norm_sq_eq]
      unfold squares
      rw [← List.sum_ofFn]
      congr 1
      apply List.ext_getElem
      · simp
      · intro i h1 h2; simp [L, y]
    obtain ⟨c, hc⟩ := (LinearMap.range L).starProjection_apply_mem y
    refine ⟨c, fun c' => ?_⟩
    rw [hsq, hsq, hc]
    have hle : ‖y - (LinearMap.range L).starProjection y‖ ≤ ‖y - L c'‖ := by
      rw [Submodule.starProjection_minimal]
      exact ciInf_le ⟨0, fun r ⟨x, hx⟩ => hx ▸ norm_nonneg _⟩ (⟨L c', LinearMap.mem_range_self L c'⟩ : LinearMap.range L)
    rw [norm_sub_rev, norm_sub_rev (L c')]
    exact pow_le_pow_left₀ (norm_nonneg _) hle 2
  exact ⟨fun s N => (key s N).choose, fun s N c => (key s N).choose_spec c⟩

end Verif.Spec.Extrapolate
