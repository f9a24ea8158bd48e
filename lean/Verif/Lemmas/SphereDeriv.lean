import Verif.Lemmas.Sphere
import Mathlib.Analysis.Calculus.Deriv.Mul
import Mathlib.Analysis.SpecialFunctions.Trigonometric.Deriv
import Mathlib.Analysis.Calculus.Deriv.Add
import Mathlib.Analysis.Complex.RealDeriv

/-!
# Derivatives of the harmonics with respect to the angles
-/

namespace Verif.SphereDeriv
open Polynomial Verif.Wigner Verif.GridMultiply Verif.Spec.Sphere

/-- `F'` is the derivative of the polynomials `F t` with respect to the parameter, coefficient by coefficient. -/
def PD (F : ℝ → ℂ[X]) (F' : ℂ[X]) (t : ℝ) : Prop := ∀ j, HasDerivAt (fun x => (F x).coeff j) (F'.coeff j) t

theorem PD.mul {F G : ℝ → ℂ[X]} {F' G' : ℂ[X]} {t : ℝ} (hF : PD F F' t) (hG : PD G G' t) : PD (fun x => F x * G x) (F' * G t + F t * G') t := by
  intro j
  have : (fun x => (F x * G x).coeff j) = fun x => ∑ y ∈ Finset.antidiagonal j, (F x).coeff y.1 * (G x).coeff y.2 := by
    funext x
    exact coeff_mul _ _ _
  rw [this, coeff_add, coeff_mul, coeff_mul, ← Finset.sum_add_distrib]
  exact HasDerivAt.fun_sum fun y _ => (hF y.1).mul (hG y.2)

theorem PD.pow {F : ℝ → ℂ[X]} {F' : ℂ[X]} {t : ℝ} (hF : PD F F' t) (n : ℕ) : PD (fun x => F x ^ n) ((n : ℂ[X]) * F t ^ (n - 1) * F') t := by
  induction n with
  | zero =>
    intro j
    simpa using hasDerivAt_const t _
  | succ n ih =>
    have h := ih.mul hF
    have e : ((n : ℂ[X]) * F t ^ (n - 1) * F') * F t + F t ^ n * F' = ((n + 1 : ℕ) : ℂ[X]) * F t ^ (n + 1 - 1) * F' := by
      cases n with
      | zero => simp
      | succ n => simp only [Nat.add_sub_cancel]; push_cast; ring
    rw [e] at h
    simpa only [pow_succ] using h

/-- The two linear polynomials. -/
noncomputable def A (θ : ℝ) : ℂ[X] := C ((Real.cos (θ / 2) : ℝ) : ℂ) * X + C (-((Real.sin (θ / 2) : ℝ) : ℂ))
noncomputable def B (θ : ℝ) : ℂ[X] := C ((Real.sin (θ / 2) : ℝ) : ℂ) * X + C ((Real.cos (θ / 2) : ℝ) : ℂ)

theorem half_der (θ : ℝ) : HasDerivAt (fun x : ℝ => x / 2) (1 / 2) θ := (hasDerivAt_id θ).div_const 2

theorem cos_der (θ : ℝ) : HasDerivAt (fun x : ℝ => ((Real.cos (x / 2) : ℝ) : ℂ)) (-(1 / 2) * ((Real.sin (θ / 2) : ℝ) : ℂ)) θ := by
  have h0 : HasDerivAt (fun x : ℝ => Real.cos (x / 2)) (-Real.sin (θ / 2) * (1 / 2)) θ := (half_der θ).cos
  have h := h0.ofReal_comp
  have e : ((-Real.sin (θ / 2) * (1 / 2) : ℝ) : ℂ) = -(1 / 2) * ((Real.sin (θ / 2) : ℝ) : ℂ) := by
    push_cast
    ring
  rwa [e] at h

theorem sin_der (θ : ℝ) : HasDerivAt (fun x : ℝ => ((Real.sin (x / 2) : ℝ) : ℂ)) (1 / 2 * ((Real.cos (θ / 2) : ℝ) : ℂ)) θ := by
  have h0 : HasDerivAt (fun x : ℝ => Real.sin (x / 2)) (Real.cos (θ / 2) * (1 / 2)) θ := (half_der θ).sin
  have h := h0.ofReal_comp
  have e : ((Real.cos (θ / 2) * (1 / 2) : ℝ) : ℂ) = 1 / 2 * ((Real.cos (θ / 2) : ℝ) : ℂ) := by
    push_cast
    ring
  rwa [e] at h

theorem linear_der {f g : ℝ → ℂ} {f' g' : ℂ} {t : ℝ} (hf : HasDerivAt f f' t) (hg : HasDerivAt g g' t) : PD (fun x => C (f x) * X + C (g x)) (C f' * X + C g') t := by
  intro j
  simp only [coeff_add, coeff_C_mul, coeff_C]
  refine (hf.mul_const _).add ?_
  split_ifs
  · exact hg
  · exact hasDerivAt_const t _

theorem A_der (θ : ℝ) : PD A (C (-(1 / 2)) * B θ) θ := by
  have h : PD A _ θ := linear_der (cos_der θ) (sin_der θ).neg
  have e : C (-(1 / 2)) * B θ = C (-(1 / 2) * ((Real.sin (θ / 2) : ℝ) : ℂ)) * X + C (-(1 / 2 * ((Real.cos (θ / 2) : ℝ) : ℂ))) := by
    unfold B
    rw [C_mul, C_neg, C_neg, C_mul]
    ring
  rwa [e]

theorem B_der (θ : ℝ) : PD B (C (1 / 2) * A θ) θ := by
  have h : PD B _ θ := linear_der (sin_der θ) (cos_der θ)
  have e : C (1 / 2) * A θ = C (1 / 2 * ((Real.cos (θ / 2) : ℝ) : ℂ)) * X + C (-(1 / 2) * ((Real.sin (θ / 2) : ℝ) : ℂ)) := by
    unfold A
    rw [C_mul, C_mul, C_neg, C_neg]
    ring
  rwa [e]

/-- The polynomial whose coefficients are the functions of `theta`. -/
noncomputable def P (i k : ℕ) (θ : ℝ) : ℂ[X] := A θ ^ i * B θ ^ k

theorem P_der (i k : ℕ) (θ : ℝ) : PD (P i k) (C (1 / 2) * ((k : ℂ[X]) * P (i + 1) (k - 1) θ - (i : ℂ[X]) * P (i - 1) (k + 1) θ)) θ := by
  have h : PD (P i k) _ θ := ((A_der θ).pow i).mul ((B_der θ).pow k)
  refine Eq.subst (motive := fun Q => PD (P i k) Q θ) ?_ h
  unfold P
  rw [C_neg]
  ring

theorem det (θ : ℝ) : ((Real.cos (θ / 2) : ℝ) : ℂ) * ((Real.cos (θ / 2) : ℝ) : ℂ) + ((Real.sin (θ / 2) : ℝ) : ℂ) * ((Real.sin (θ / 2) : ℝ) : ℂ) = 1 := by
  have := Real.cos_sq_add_sin_sq (θ / 2)
  rw [← sq, ← sq]
  exact_mod_cast this

/-- The functions of `theta`, zero for indices outside the range. -/
noncomputable def c (n i j : Int) (θ : ℝ) : ℂ := C3 (Real.cos (θ / 2) : ℝ) (-(Real.sin (θ / 2) : ℝ)) (Real.sin (θ / 2) : ℝ) (Real.cos (θ / 2) : ℝ) n i j

theorem c_P (i k j : ℕ) (θ : ℝ) : c ((i + k : ℕ) : Int) i j θ = (P i k θ).coeff j := by
  unfold c
  rw [C3_nat _ _ _ _ _ _ _ (by omega), coef_poly]
  rfl

theorem c_j_neg {n i j : Int} (h : j < 0) (θ : ℝ) : c n i j θ = 0 := C3_neg (by omega)
theorem c_i_out {n i j : Int} (h : i < 0 ∨ n < i) (θ : ℝ) : c n i j θ = 0 := C3_neg (by omega)
theorem c_j_out {n i j : Int} (h : n < j) (θ : ℝ) : c n i j θ = 0 := C3_large h

theorem cast_left (i k : ℕ) (h : 0 < i) (j : ℕ) (θ : ℝ) : c ((i + k : ℕ) : Int) ((i : Int) - 1) j θ = (P (i - 1) (k + 1) θ).coeff j := by
  rw [← c_P]
  congr 1 <;> omega

theorem cast_right (i k : ℕ) (h : 0 < k) (j : ℕ) (θ : ℝ) : c ((i + k : ℕ) : Int) ((i : Int) + 1) j θ = (P (i + 1) (k - 1) θ).coeff j := by
  rw [← c_P]
  congr 1
  omega

theorem left_term (i k j : ℕ) (θ : ℝ) : ((i : ℂ[X]) * P (i - 1) (k + 1) θ).coeff j = (i : ℂ) * c ((i + k : ℕ) : Int) ((i : Int) - 1) j θ := by
  rw [nat_coeff']
  rcases Nat.eq_zero_or_pos i with rfl | h
  · simp
  · rw [cast_left i k h]

theorem right_term (i k j : ℕ) (θ : ℝ) : ((k : ℂ[X]) * P (i + 1) (k - 1) θ).coeff j = (k : ℂ) * c ((i + k : ℕ) : Int) ((i : Int) + 1) j θ := by
  rw [nat_coeff']
  rcases Nat.eq_zero_or_pos k with rfl | h
  · simp
  · rw [cast_right i k h]

/-- Write integers in range as natural numbers. -/
theorem nat_form {n i j : Int} (h0 : 0 ≤ i) (h1 : i ≤ n) (h2 : 0 ≤ j) : ∃ i' k j' : ℕ, i = i' ∧ j = j' ∧ n = ((i' + k : ℕ) : Int) :=
  ⟨i.toNat, (n - i).toNat, j.toNat, by omega, by omega, by omega⟩

theorem c_der {n i : Int} (j : Int) (h0 : 0 ≤ i) (h1 : i ≤ n) (θ : ℝ) : HasDerivAt (c n i j) (1 / 2 * ((n - i : ℂ) * c n (i + 1) j θ - (i : ℂ) * c n (i - 1) j θ)) θ := by
  by_cases h2 : 0 ≤ j
  swap
  · have e : c n i j = fun _ => 0 := by
      funext x
      exact c_j_neg (by omega) x
    rw [e, c_j_neg (by omega), c_j_neg (by omega)]
    simpa using hasDerivAt_const θ (0 : ℂ)
  obtain ⟨i, k, j, rfl, rfl, rfl⟩ := nat_form h0 h1 h2
  have h := P_der i k θ j
  rw [coeff_C_mul, coeff_sub, left_term, right_term] at h
  have e : c ((i + k : ℕ) : Int) i j = fun x => (P i k x).coeff j := by
    funext x
    exact c_P i k j x
  rw [e]
  convert h using 1
  push_cast
  ring

theorem sin_eq (θ : ℝ) : ((Real.sin θ : ℝ) : ℂ) = 2 * ((Real.sin (θ / 2) : ℝ) : ℂ) * ((Real.cos (θ / 2) : ℝ) : ℂ) := by
  exact_mod_cast Verif.Sphere.sin_half θ

theorem cos_eq (θ : ℝ) : ((Real.cos θ : ℝ) : ℂ) = ((Real.cos (θ / 2) : ℝ) : ℂ) ^ 2 - ((Real.sin (θ / 2) : ℝ) : ℂ) ^ 2 := by
  exact_mod_cast Verif.Sphere.cos_half θ

/-- `(2 j - n) c = cos (2 i - n) c + sin (i c(i-1) + (n - i) c(i+1))`. -/
theorem row_rule {n i : Int} (j : Int) (h0 : 0 ≤ i) (h1 : i ≤ n) (θ : ℝ) :
    (2 * j - n : ℂ) * c n i j θ = (Real.cos θ : ℝ) * (2 * i - n) * c n i j θ + (Real.sin θ : ℝ) * (i * c n (i - 1) j θ + (n - i) * c n (i + 1) j θ) := by
  by_cases h2 : 0 ≤ j
  swap
  · rw [c_j_neg (by omega), c_j_neg (by omega), c_j_neg (by omega)]
    ring
  obtain ⟨i, k, j, rfl, rfl, rfl⟩ := nat_form h0 h1 h2
  have d : (C ((Real.cos (θ / 2) : ℝ) : ℂ) * C ((Real.cos (θ / 2) : ℝ) : ℂ) + C ((Real.sin (θ / 2) : ℝ) : ℂ) * C ((Real.sin (θ / 2) : ℝ) : ℂ) : ℂ[X]) = 1 := by
    rw [← C_mul, ← C_mul, ← C_add, det, C_1]
  have key : (2 : ℂ[X]) * (X * derivative (P i k θ)) - ((i : ℂ[X]) + (k : ℂ[X])) * P i k θ = C ((Real.cos θ : ℝ) : ℂ) * (((i : ℂ[X]) - (k : ℂ[X])) * P i k θ) +
      C ((Real.sin θ : ℝ) : ℂ) * ((i : ℂ[X]) * P (i - 1) (k + 1) θ + (k : ℂ[X]) * P (i + 1) (k - 1) θ) := by
    rw [sin_eq, cos_eq]
    have e := der_poly ((Real.cos (θ / 2) : ℝ) : ℂ) (-((Real.sin (θ / 2) : ℝ) : ℂ)) ((Real.sin (θ / 2) : ℝ) : ℂ) ((Real.cos (θ / 2) : ℝ) : ℂ) i k
    have eA : C ((Real.cos (θ / 2) : ℝ) : ℂ) * X + C (-((Real.sin (θ / 2) : ℝ) : ℂ)) = A θ := rfl
    have eB : C ((Real.sin (θ / 2) : ℝ) : ℂ) * X + C ((Real.cos (θ / 2) : ℝ) : ℂ) = B θ := rfl
    rw [eA, eB] at e
    unfold P
    rw [e]
    have hX : (X : ℂ[X]) = C ((Real.cos (θ / 2) : ℝ) : ℂ) * A θ + C ((Real.sin (θ / 2) : ℝ) : ℂ) * B θ := by
      unfold A B
      rw [C_neg]
      linear_combination -X * d
    simp only [C_sub, C_mul, C_pow, map_ofNat]
    generalize C ((Real.cos (θ / 2) : ℝ) : ℂ) = u at *
    generalize C ((Real.sin (θ / 2) : ℝ) : ℂ) = v at *
    generalize A θ = a at *
    generalize B θ = b at *
    rw [hX]
    rcases i with _ | i <;> rcases k with _ | k <;> simp only [Nat.add_sub_cancel, pow_succ, pow_zero, Nat.cast_zero, Nat.zero_sub] <;> push_cast
    · ring
    · linear_combination ((k + 1) * (b ^ k * b)) * d
    · linear_combination ((i + 1) * (a ^ i * a)) * d
    · linear_combination ((i + 1 + (k + 1)) * (a ^ i * a * (b ^ k * b))) * d
  have h := congrArg (fun Q : ℂ[X] => Q.coeff j) key
  have e1 : (2 : ℂ[X]) = C 2 := (map_ofNat C 2).symm
  have e2 : (i : ℂ[X]) + (k : ℂ[X]) = C ((i : ℂ) + k) := by simp
  have e3 : (i : ℂ[X]) - (k : ℂ[X]) = C ((i : ℂ) - k) := by simp
  simp only [e1, e2, e3, coeff_add, coeff_sub, coeff_C_mul, X_der, left_term, right_term] at h
  rw [← c_P] at h
  push_cast at h ⊢
  linear_combination h

/-- The coefficients of `X` times a polynomial. -/
theorem X_coeff (i k j : ℕ) (θ : ℝ) : (X * P i k θ).coeff j = c ((i + k : ℕ) : Int) i ((j : Int) - 1) θ := by
  cases j with
  | zero => rw [c_j_neg (by simp)]; simp
  | succ j =>
    rw [coeff_X_mul, ← c_P]
    congr 1
    push_cast
    ring

theorem der_coeff (i k j : ℕ) (θ : ℝ) : (derivative (P i k θ)).coeff j = (j + 1 : ℂ) * c ((i + k : ℕ) : Int) i ((j : Int) + 1) θ := by
  rw [coeff_derivative, ← c_P, mul_comm]
  congr 1

theorem XX_der (i k j : ℕ) (θ : ℝ) : (X * (X * derivative (P i k θ))).coeff j = (j - 1 : ℂ) * c ((i + k : ℕ) : Int) i ((j : Int) - 1) θ := by
  cases j with
  | zero => rw [c_j_neg (by simp)]; simp
  | succ j =>
    rw [coeff_X_mul, X_der, ← c_P]
    push_cast
    rw [add_sub_cancel_right, add_sub_cancel_right]

/-- The two rules for `j`: `½ ((n-i) c(i+1) - i c(i-1)) = ½ ((n-j+1) c(j-1) - (j+1) c(j+1))` and
`(2 i - n) c = cos (2 j - n) c - sin ((j+1) c(j+1) + (n-j+1) c(j-1))`. -/
theorem column_rules {n i : Int} (j : Int) (h0 : 0 ≤ i) (h1 : i ≤ n) (θ : ℝ) :
    (n - i : ℂ) * c n (i + 1) j θ - (i : ℂ) * c n (i - 1) j θ = (n - j + 1) * c n i (j - 1) θ - (j + 1) * c n i (j + 1) θ ∧
    (2 * i - n : ℂ) * c n i j θ = (Real.cos θ : ℝ) * (2 * j - n) * c n i j θ - (Real.sin θ : ℝ) * ((j + 1) * c n i (j + 1) θ + (n - j + 1) * c n i (j - 1) θ) := by
  by_cases h2 : 0 ≤ j
  swap
  · rw [c_j_neg (i := i + 1) (by omega), c_j_neg (i := i - 1) (by omega), c_j_neg (i := i) (j := j) (by omega), c_j_neg (j := j - 1) (by omega)]
    rcases eq_or_lt_of_le (show j ≤ -1 by omega) with rfl | h
    · push_cast
      constructor <;> ring
    · rw [c_j_neg (by omega)]
      constructor <;> ring
  obtain ⟨i, k, j, rfl, rfl, rfl⟩ := nat_form h0 h1 h2
  have d : (C ((Real.cos (θ / 2) : ℝ) : ℂ) * C ((Real.cos (θ / 2) : ℝ) : ℂ) + C ((Real.sin (θ / 2) : ℝ) : ℂ) * C ((Real.sin (θ / 2) : ℝ) : ℂ) : ℂ[X]) = 1 := by
    rw [← C_mul, ← C_mul, ← C_add, det, C_1]
  have e := der_poly ((Real.cos (θ / 2) : ℝ) : ℂ) (-((Real.sin (θ / 2) : ℝ) : ℂ)) ((Real.sin (θ / 2) : ℝ) : ℂ) ((Real.cos (θ / 2) : ℝ) : ℂ) i k
  have eA : C ((Real.cos (θ / 2) : ℝ) : ℂ) * X + C (-((Real.sin (θ / 2) : ℝ) : ℂ)) = A θ := rfl
  have eB : C ((Real.sin (θ / 2) : ℝ) : ℂ) * X + C ((Real.cos (θ / 2) : ℝ) : ℂ) = B θ := rfl
  rw [eA, eB] at e
  rw [C_neg] at eA
  have eP : A θ ^ i * B θ ^ k = P i k θ := rfl
  rw [eP] at e
  have key1 : (k : ℂ[X]) * P (i + 1) (k - 1) θ - (i : ℂ[X]) * P (i - 1) (k + 1) θ = ((i : ℂ[X]) + (k : ℂ[X])) * (X * P i k θ) - X * (X * derivative (P i k θ)) - derivative (P i k θ) := by
    rw [e]
    unfold P
    generalize C ((Real.cos (θ / 2) : ℝ) : ℂ) = u at *
    generalize C ((Real.sin (θ / 2) : ℝ) : ℂ) = v at *
    generalize A θ = a at *
    generalize B θ = b at *
    subst eA eB
    rcases i with _ | i <;> rcases k with _ | k <;> simp only [Nat.add_sub_cancel, pow_succ, pow_zero, Nat.cast_zero, Nat.zero_sub] <;> push_cast <;> ring
  have key2 : ((i : ℂ[X]) - (k : ℂ[X])) * P i k θ = C ((Real.cos θ : ℝ) : ℂ) * ((2 : ℂ[X]) * (X * derivative (P i k θ)) - ((i : ℂ[X]) + (k : ℂ[X])) * P i k θ) -
      C ((Real.sin θ : ℝ) : ℂ) * (derivative (P i k θ) + ((i : ℂ[X]) + (k : ℂ[X])) * (X * P i k θ) - X * (X * derivative (P i k θ))) := by
    rw [sin_eq, cos_eq, e]
    unfold P
    simp only [C_sub, C_mul, C_pow, map_ofNat]
    generalize C ((Real.cos (θ / 2) : ℝ) : ℂ) = u at *
    generalize C ((Real.sin (θ / 2) : ℝ) : ℂ) = v at *
    generalize A θ = a at *
    generalize B θ = b at *
    subst eA eB
    rcases i with _ | i <;> rcases k with _ | k <;> simp only [Nat.add_sub_cancel, pow_succ, pow_zero, Nat.cast_zero, Nat.zero_sub] <;> push_cast
    · ring
    · linear_combination ((k + 1) * ((v * X + u) ^ k * (v * X + u))) * d
    · linear_combination (-(i + 1) * ((u * X + -v) ^ i * (u * X + -v))) * d
    · linear_combination (-(i + 1 - (k + 1)) * ((u * X + -v) ^ i * (u * X + -v) * ((v * X + u) ^ k * (v * X + u)))) * d
  have e1 : (2 : ℂ[X]) = C 2 := (map_ofNat C 2).symm
  have e2 : (i : ℂ[X]) + (k : ℂ[X]) = C ((i : ℂ) + k) := by simp
  have e3 : (i : ℂ[X]) - (k : ℂ[X]) = C ((i : ℂ) - k) := by simp
  have g1 := congrArg (fun Q : ℂ[X] => Q.coeff j) key1
  have g2 := congrArg (fun Q : ℂ[X] => Q.coeff j) key2
  simp only [e1, e2, e3, coeff_add, coeff_sub, coeff_C_mul, X_der, left_term, right_term, X_coeff, XX_der, der_coeff] at g1 g2
  rw [← c_P] at g2
  push_cast at g1 g2 ⊢
  constructor
  · linear_combination g1
  · linear_combination g2

/-! ## The normalisation -/

theorem nu_step {l μ : Int} (h1 : -l ≤ μ) (h2 : μ + 1 ≤ l) : nuZ l (μ + 1) * √((l : ℝ) - μ) = nuZ l μ * √((l : ℝ) + μ + 1) := by
  obtain ⟨i, k, hi, hk⟩ : ∃ i k : ℕ, (i : Int) = l + μ ∧ (k : Int) + 1 = l - μ := ⟨(l + μ).toNat, (l - μ - 1).toNat, by omega, by omega⟩
  rw [nuZ_eq (i := i + 1) (k := k) (by push_cast; omega) (by omega), nuZ_eq (i := i) (k := k + 1) (by omega) (by push_cast; omega), vv_left, vv_right]
  have e1 : (l : ℝ) - μ = k + 1 := by exact_mod_cast hk.symm
  have e2 : (l : ℝ) + μ + 1 = i + 1 := by exact_mod_cast congrArg (· + 1) hi.symm
  rw [e1, e2]
  ring

theorem nu_up {l μ : Int} (h1 : -l ≤ μ) (h2 : μ + 1 ≤ l) : nuZ l (μ + 1) * √(((l : ℝ) - μ) * (l + μ + 1)) = nuZ l μ * ((l : ℝ) + μ + 1) := by
  have a : (0 : ℝ) ≤ (l : ℝ) - μ := by exact_mod_cast (show 0 ≤ l - μ by omega)
  have b : (0 : ℝ) ≤ (l : ℝ) + μ + 1 := by exact_mod_cast (show 0 ≤ l + μ + 1 by omega)
  rw [Real.sqrt_mul a, ← mul_assoc, nu_step h1 h2, mul_assoc, Real.mul_self_sqrt b]

theorem nu_down {l μ : Int} (h1 : -l ≤ μ) (h2 : μ + 1 ≤ l) : nuZ l μ * √(((l : ℝ) - μ) * (l + μ + 1)) = nuZ l (μ + 1) * ((l : ℝ) - μ) := by
  have a : (0 : ℝ) ≤ (l : ℝ) - μ := by exact_mod_cast (show 0 ≤ l - μ by omega)
  rw [Real.sqrt_mul a, mul_comm (√((l : ℝ) - μ)), ← mul_assoc, ← nu_step h1 h2, mul_assoc, Real.mul_self_sqrt a]

/-- The harmonics in terms of the functions `c`. -/
theorem Y_c {s l m : Int} (h : |s| ≤ l) (h1 : -l ≤ m) (h2 : m ≤ l) (θ φ : ℝ) : Y s l m (rotor θ φ) =
    (-1) ^ s.natAbs * ((√((2 * l + 1) / (4 * Real.pi)) : ℝ) : ℂ) * (((nuZ l (-s) : ℝ) : ℂ) / (nuZ l m : ℝ)) * Complex.exp (m * φ * Complex.I) * c (2 * l) (l + m) (l - s) θ := by
  have hs := abs_le.1 h
  rw [Y_rotor h h1 h2]
  have e : c (2 * l) (l + m) (l - s) θ =
      coef (2 * l).toNat (Real.cos (θ / 2) : ℝ) (-(Real.sin (θ / 2) : ℝ)) (Real.sin (θ / 2) : ℝ) (Real.cos (θ / 2) : ℝ) (l + m).toNat (l + -s).toNat := by
    unfold c C3
    rw [if_pos ⟨by omega, by omega, by omega⟩]
    rfl
  rw [e]
  unfold fac nuZ
  push_cast
  ring

theorem sign_succ (s : Int) : (-1 : ℂ) ^ (s + 1).natAbs = -(-1) ^ s.natAbs := by
  rw [← sign_add s 1]
  simp

theorem sign_pred (s : Int) : (-1 : ℂ) ^ (s - 1).natAbs = -(-1) ^ s.natAbs := by
  have := sign_succ (s - 1)
  rw [sub_add_cancel] at this
  rw [this, neg_neg]

/-- `ð` and `ð̄` of a harmonic. -/
noncomputable def EY (s l m : Int) (θ φ : ℝ) : ℂ := ((√(((l : ℝ) - s) * (l + s + 1)) : ℝ) : ℂ) * Y (s + 1) l m (rotor θ φ)
noncomputable def BY (s l m : Int) (θ φ : ℝ) : ℂ := -((√(((l : ℝ) + s) * (l - s + 1)) : ℝ) : ℂ) * Y (s - 1) l m (rotor θ φ)

/-- The common factor. -/
noncomputable def K (s l m : Int) (φ : ℝ) : ℂ :=
  (-1) ^ s.natAbs * ((√((2 * l + 1) / (4 * Real.pi)) : ℝ) : ℂ) * (((nuZ l (-s) : ℝ) : ℂ) / (nuZ l m : ℝ)) * Complex.exp (m * φ * Complex.I)

theorem EY_eq {s l m : Int} (h : |s| ≤ l) (h1 : -l ≤ m) (h2 : m ≤ l) (θ φ : ℝ) : EY s l m θ φ = -K s l m φ * ((l + s + 1 : ℂ) * c (2 * l) (l + m) (l - s - 1) θ) := by
  have hs := abs_le.1 h
  unfold EY K
  by_cases hl : s = l
  · subst hl
    rw [c_j_neg (by omega), sub_self, zero_mul]
    simp
  · have e := nu_down (l := l) (μ := -s - 1) (by omega) (by omega)
    rw [sub_add_cancel] at e
    push_cast at e
    have e1 : ((l : ℝ) - (-s - 1)) * (l + (-s - 1) + 1) = (l - s) * (l + s + 1) := by ring
    have e2 : (l : ℝ) - (-s - 1) = l + s + 1 := by ring
    rw [e1, e2] at e
    have e' := congrArg (fun x : ℝ => (x : ℂ)) e
    rw [Y_c (s := s + 1) (abs_le.2 (by omega)) h1 h2, sign_succ, show -(s + 1) = -s - 1 by ring, show l - (s + 1) = l - s - 1 by ring]
    generalize √((2 * (l : ℝ) + 1) / (4 * Real.pi)) = w
    generalize c _ _ _ θ = Z
    push_cast at e' ⊢
    have n := nuZ_ne l m
    field_simp
    linear_combination (-(w : ℂ) * Z) * e'

theorem BY_eq {s l m : Int} (h : |s| ≤ l) (h1 : -l ≤ m) (h2 : m ≤ l) (θ φ : ℝ) : BY s l m θ φ = K s l m φ * ((l - s + 1 : ℂ) * c (2 * l) (l + m) (l - s + 1) θ) := by
  have hs := abs_le.1 h
  unfold BY K
  by_cases hl : s = -l
  · subst hl
    rw [c_j_out (by omega)]
    push_cast
    rw [add_neg_cancel, zero_mul]
    simp
  · have e := nu_up (l := l) (μ := -s) (by omega) (by omega)
    push_cast at e
    have e1 : ((l : ℝ) - -s) * (l + -s + 1) = (l + s) * (l - s + 1) := by ring
    have e2 : (l : ℝ) + -s + 1 = l - s + 1 := by ring
    rw [e1, e2] at e
    have e' := congrArg (fun x : ℝ => (x : ℂ)) e
    rw [Y_c (s := s - 1) (abs_le.2 (by omega)) h1 h2, sign_pred, show -(s - 1) = -s + 1 by ring, show l - (s - 1) = l - s + 1 by ring]
    generalize √((2 * (l : ℝ) + 1) / (4 * Real.pi)) = w
    generalize c _ _ _ θ = Z
    push_cast at e' ⊢
    have n := nuZ_ne l m
    field_simp
    linear_combination ((w : ℂ) * Z) * e'

theorem Y_zero {s l m : Int} (h : ¬ |s| ≤ l) (R : Quaternion ℝ) : Y s l m R = 0 := if_neg h

theorem EY_zero {s l m : Int} (h : ¬ |s| ≤ l) (θ φ : ℝ) : EY s l m θ φ = 0 := by
  unfold EY
  by_cases hs : s = -l - 1
  · subst hs
    push_cast
    rw [show (l : ℝ) + (-l - 1) + 1 = 0 by ring, mul_zero]
    simp
  · rw [Y_zero (by rw [abs_le] at h ⊢; omega), mul_zero]

theorem BY_zero {s l m : Int} (h : ¬ |s| ≤ l) (θ φ : ℝ) : BY s l m θ φ = 0 := by
  unfold BY
  by_cases hs : s = l + 1
  · subst hs
    push_cast
    rw [show (l : ℝ) - (l + 1) + 1 = 0 by ring, mul_zero]
    simp
  · rw [Y_zero (by rw [abs_le] at h ⊢; omega), mul_zero]

/-- The derivative with respect to `theta` is `-½ (ðY + ð̄Y)`. -/
theorem Y_theta (s l m : Int) (h1 : -l ≤ m) (h2 : m ≤ l) (θ φ : ℝ) : HasDerivAt (fun x => Y s l m (rotor x φ)) (-(1 / 2) * (EY s l m θ φ + BY s l m θ φ)) θ := by
  by_cases h : |s| ≤ l
  swap
  · rw [EY_zero h, BY_zero h]
    simp only [Y_zero h]
    simpa using hasDerivAt_const θ (0 : ℂ)
  have hs := abs_le.1 h
  have e := (c_der (n := 2 * l) (i := l + m) (l - s) (by omega) (by omega) θ).const_mul (K s l m φ)
  have r := (column_rules (n := 2 * l) (i := l + m) (l - s) (by omega) (by omega) θ).1
  have f : (fun x => Y s l m (rotor x φ)) = fun x => K s l m φ * c (2 * l) (l + m) (l - s) x := by
    funext x
    rw [Y_c h h1 h2]
    rfl
  rw [f, EY_eq h h1 h2, BY_eq h h1 h2]
  refine Eq.subst (motive := fun d => HasDerivAt _ d θ) ?_ e
  push_cast at r ⊢
  linear_combination (1 / 2 * K s l m φ) * r

/-- `(m + s cos θ) Y = ½ sin θ (ðY - ð̄Y)`. -/
theorem Y_sum_spin (s l m : Int) (h1 : -l ≤ m) (h2 : m ≤ l) (θ φ : ℝ) : (m + s * (Real.cos θ : ℝ) : ℂ) * Y s l m (rotor θ φ) = 1 / 2 * (Real.sin θ : ℝ) * (EY s l m θ φ - BY s l m θ φ) := by
  by_cases h : |s| ≤ l
  swap
  · rw [EY_zero h, BY_zero h, Y_zero h]
    ring
  have hs := abs_le.1 h
  have r := (column_rules (n := 2 * l) (i := l + m) (l - s) (by omega) (by omega) θ).2
  have f : Y s l m (rotor θ φ) = K s l m φ * c (2 * l) (l + m) (l - s) θ := by
    rw [Y_c h h1 h2]
    rfl
  rw [f, EY_eq h h1 h2, BY_eq h h1 h2]
  push_cast at r ⊢
  linear_combination (1 / 2 * K s l m φ) * r

/-- The derivative with respect to `phi`. -/
theorem Y_phi (s l m : Int) (h1 : -l ≤ m) (h2 : m ≤ l) (θ φ : ℝ) : HasDerivAt (fun x => Y s l m (rotor θ x)) (Complex.I * m * Y s l m (rotor θ φ)) φ := by
  by_cases h : |s| ≤ l
  swap
  · simp only [Y_zero h]
    simpa using hasDerivAt_const φ (0 : ℂ)
  simp only [Y_c h h1 h2]
  have e0 : HasDerivAt (fun x : ℝ => (m : ℂ) * (x : ℂ) * Complex.I) ((m : ℂ) * 1 * Complex.I) φ := ((hasDerivAt_id φ).ofReal_comp.const_mul (m : ℂ)).mul_const Complex.I
  have e := e0.cexp
  refine Eq.subst (motive := fun d => HasDerivAt _ d φ) ?_ ((e.const_mul ((-1) ^ s.natAbs * ((√((2 * l + 1) / (4 * Real.pi)) : ℝ) : ℂ) * (((nuZ l (-s) : ℝ) : ℂ) / (nuZ l m : ℝ)))).mul_const (c (2 * l) (l + m) (l - s) θ))
  ring

/-! ## Raising and lowering of `m` -/

noncomputable def UY (s l m : Int) (θ φ : ℝ) : ℂ := Complex.exp (-(φ * Complex.I)) * (((√(((l : ℝ) - m) * (l + m + 1)) : ℝ) : ℂ) * Y s l (m + 1) (rotor θ φ))
noncomputable def DY (s l m : Int) (θ φ : ℝ) : ℂ := Complex.exp (φ * Complex.I) * (((√(((l : ℝ) + m) * (l - m + 1)) : ℝ) : ℂ) * Y s l (m - 1) (rotor θ φ))

theorem UY_eq {s l m : Int} (h : |s| ≤ l) (h1 : -l ≤ m) (h2 : m ≤ l) (θ φ : ℝ) : UY s l m θ φ = K s l m φ * ((l - m : ℂ) * c (2 * l) (l + m + 1) (l - s) θ) := by
  unfold UY K
  by_cases hl : m = l
  · subst hl
    rw [c_i_out (by omega), sub_self, zero_mul]
    simp
  · have e := nu_down (l := l) (μ := m) (by omega) (by omega)
    have e' := congrArg (fun x : ℝ => (x : ℂ)) e
    have x : Complex.exp (-(φ * Complex.I)) * Complex.exp (((m + 1 : Int) : ℂ) * φ * Complex.I) = Complex.exp (m * φ * Complex.I) := by
      rw [← Complex.exp_add]
      congr 1
      push_cast
      ring
    rw [Y_c h (by omega) (by omega), show l + (m + 1) = l + m + 1 by ring]
    generalize √((2 * (l : ℝ) + 1) / (4 * Real.pi)) = w
    generalize c _ _ _ θ = Z
    push_cast at e' x ⊢
    rw [← x]
    have n := nuZ_ne l m
    have n' := nuZ_ne l (m + 1)
    field_simp
    linear_combination ((w : ℂ) * Z * (nuZ l (-s) : ℝ)) * e'

theorem DY_eq {s l m : Int} (h : |s| ≤ l) (h1 : -l ≤ m) (h2 : m ≤ l) (θ φ : ℝ) : DY s l m θ φ = K s l m φ * ((l + m : ℂ) * c (2 * l) (l + m - 1) (l - s) θ) := by
  unfold DY K
  by_cases hl : m = -l
  · subst hl
    rw [c_i_out (by omega)]
    push_cast
    rw [add_neg_cancel, zero_mul]
    simp
  · have e := nu_up (l := l) (μ := m - 1) (by omega) (by omega)
    rw [sub_add_cancel] at e
    push_cast at e
    rw [show ((l : ℝ) - (m - 1)) * (l + (m - 1) + 1) = (l + m) * (l - m + 1) by ring, show (l : ℝ) + (m - 1) + 1 = l + m by ring] at e
    have e' := congrArg (fun x : ℝ => (x : ℂ)) e
    have x : Complex.exp (φ * Complex.I) * Complex.exp (((m - 1 : Int) : ℂ) * φ * Complex.I) = Complex.exp (m * φ * Complex.I) := by
      rw [← Complex.exp_add]
      congr 1
      push_cast
      ring
    rw [Y_c h (by omega) (by omega), show l + (m - 1) = l + m - 1 by ring]
    generalize √((2 * (l : ℝ) + 1) / (4 * Real.pi)) = w
    generalize c _ _ _ θ = Z
    push_cast at e' x ⊢
    rw [← x]
    have n := nuZ_ne l m
    have n' := nuZ_ne l (m - 1)
    field_simp
    linear_combination ((w : ℂ) * Z * (nuZ l (-s) : ℝ)) * e'

theorem U_zero {s l m : Int} (h : ¬ |s| ≤ l) (θ φ : ℝ) : UY s l m θ φ = 0 := by
  unfold UY
  rw [Y_zero h, mul_zero, mul_zero]

theorem D_zero {s l m : Int} (h : ¬ |s| ≤ l) (θ φ : ℝ) : DY s l m θ φ = 0 := by
  unfold DY
  rw [Y_zero h, mul_zero, mul_zero]

/-- `ðY + ð̄Y = Y₋ - Y₊`: the derivative with respect to `theta` in terms of raised and lowered `m`. -/
theorem Y_theta_L (s l m : Int) (h1 : -l ≤ m) (h2 : m ≤ l) (θ φ : ℝ) : HasDerivAt (fun x => Y s l m (rotor x φ)) (1 / 2 * (UY s l m θ φ - DY s l m θ φ)) θ := by
  by_cases h : |s| ≤ l
  swap
  · rw [U_zero h, D_zero h]
    simp only [Y_zero h]
    simpa using hasDerivAt_const θ (0 : ℂ)
  have hs := abs_le.1 h
  have e := (c_der (n := 2 * l) (i := l + m) (l - s) (by omega) (by omega) θ).const_mul (K s l m φ)
  have f : (fun x => Y s l m (rotor x φ)) = fun x => K s l m φ * c (2 * l) (l + m) (l - s) x := by
    funext x
    rw [Y_c h h1 h2]
    rfl
  rw [f, UY_eq h h1 h2, DY_eq h h1 h2]
  refine Eq.subst (motive := fun d => HasDerivAt _ d θ) ?_ e
  push_cast
  ring

/-- `-(s + m cos θ) Y = ½ sin θ (Y₊ + Y₋)`. -/
theorem Y_sum_m (s l m : Int) (h1 : -l ≤ m) (h2 : m ≤ l) (θ φ : ℝ) : -(s + m * (Real.cos θ : ℝ) : ℂ) * Y s l m (rotor θ φ) = 1 / 2 * (Real.sin θ : ℝ) * (UY s l m θ φ + DY s l m θ φ) := by
  by_cases h : |s| ≤ l
  swap
  · rw [U_zero h, D_zero h, Y_zero h]
    ring
  have hs := abs_le.1 h
  have r := row_rule (n := 2 * l) (i := l + m) (l - s) (by omega) (by omega) θ
  have f : Y s l m (rotor θ φ) = K s l m φ * c (2 * l) (l + m) (l - s) θ := by
    rw [Y_c h h1 h2]
    rfl
  rw [f, UY_eq h h1 h2, DY_eq h h1 h2]
  push_cast at r ⊢
  linear_combination (1 / 2 * K s l m φ) * r

end Verif.SphereDeriv
