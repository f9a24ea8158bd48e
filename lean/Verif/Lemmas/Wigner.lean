import Verif.Model.Wigner
import Mathlib.Algebra.Polynomial.Roots
import Mathlib.Algebra.Polynomial.BigOperators
import Mathlib.Tactic.Ring
import Mathlib.Tactic.FieldSimp
import Mathlib.Tactic.Positivity
import Mathlib.Tactic.LinearCombination

/-!
# The Wigner D matrices form a unitary representation

The rows of the matrices are the coefficients of `(p x + q y)^i (r x + s y)^(n-i)`.
-/

namespace Verif.Wigner
open ComplexConjugate Finset

/-- Generating function of a row. -/
theorem coef_gen (n : ℕ) (p q r s : ℂ) (i : ℕ) (hi : i ≤ n) (x y : ℂ) :
    ∑ j ∈ range (n + 1), coef n p q r s i j * (x ^ j * y ^ (n - j)) =
      (p * x + q * y) ^ i * (r * x + s * y) ^ (n - i) := by
  have hR : (p * x + q * y) ^ i * (r * x + s * y) ^ (n - i) =
      ∑ ρ ∈ range (i + 1), ∑ l ∈ range (n - i + 1),
        ((q * y) ^ ρ * (p * x) ^ (i - ρ) * (i.choose ρ : ℂ)) *
          ((r * x) ^ l * (s * y) ^ (n - i - l) * ((n - i).choose l : ℂ)) := by
    rw [add_comm (p * x), add_pow, add_pow, sum_mul_sum]
  rw [hR]
  simp only [coef, sum_mul, sum_filter]
  rw [sum_comm]
  apply sum_congr rfl
  intro ρ hρ
  rw [mem_range] at hρ
  simp only [ite_mul, zero_mul]
  rw [← sum_filter]
  apply sum_nbij' (fun j => j + ρ - i) (fun l => l + i - ρ)
  · intro j hj
    simp only [mem_filter, mem_range] at hj ⊢
    omega
  · intro l hl
    simp only [mem_filter, mem_range] at hl ⊢
    omega
  · intro j hj
    simp only [mem_filter, mem_range] at hj
    omega
  · intro l hl
    simp only [mem_range] at hl
    omega
  · intro j hj
    simp only [mem_filter, mem_range] at hj
    obtain ⟨hj1, hj2, hj3⟩ := hj
    have e1 : n - i - (j + ρ - i) = n - j - ρ := by omega
    have e2 : (n - i).choose (n - j - ρ) = (n - i).choose (j + ρ - i) := by
      rw [← e1]; exact Nat.choose_symm (by omega)
    have e3 : x ^ j = x ^ (i - ρ) * x ^ (j + ρ - i) := by rw [← pow_add]; congr 1; omega
    have e4 : y ^ (n - j) = y ^ ρ * y ^ (n - j - ρ) := by rw [← pow_add]; congr 1; omega
    rw [e1, e2, e3, e4]
    simp only [mul_pow]
    ring

/-- Monomials of degree `n` in two variables are independent. -/
theorem indep (n : ℕ) (c d : ℕ → ℂ)
    (h : ∀ x y : ℂ, ∑ j ∈ range (n + 1), c j * (x ^ j * y ^ (n - j)) =
      ∑ j ∈ range (n + 1), d j * (x ^ j * y ^ (n - j))) (j : ℕ) (hj : j ≤ n) : c j = d j := by
  have key : (∑ j ∈ range (n + 1), Polynomial.C (c j) * Polynomial.X ^ j) =
      ∑ j ∈ range (n + 1), Polynomial.C (d j) * Polynomial.X ^ j := by
    apply Polynomial.funext
    intro x
    have := h x 1
    simp only [one_pow, mul_one] at this
    simp only [Polynomial.eval_finsetSum, Polynomial.eval_mul, Polynomial.eval_C, Polynomial.eval_pow,
      Polynomial.eval_X]
    exact this
  have := congrArg (fun P => Polynomial.coeff P j) key
  simp only [Polynomial.finsetSum_coeff, Polynomial.coeff_C_mul, Polynomial.coeff_X_pow] at this
  simpa [Finset.sum_ite_eq, Nat.lt_succ_iff.mpr hj] using this

theorem coef_mul (n : ℕ) (p q r s p' q' r' s' : ℂ) (i k : ℕ) (hi : i ≤ n) (hk : k ≤ n) :
    coef n (p * p' + q * r') (p * q' + q * s') (r * p' + s * r') (r * q' + s * s') i k =
      ∑ j ∈ range (n + 1), coef n p q r s i j * coef n p' q' r' s' j k := by
  apply indep n (fun k => coef n (p * p' + q * r') (p * q' + q * s') (r * p' + s * r') (r * q' + s * s') i k)
    (fun k => ∑ j ∈ range (n + 1), coef n p q r s i j * coef n p' q' r' s' j k) _ k hk
  intro x y
  rw [coef_gen n _ _ _ _ i hi]
  simp only [sum_mul]
  rw [sum_comm]
  have : ∀ j ∈ range (n + 1), ∑ k ∈ range (n + 1), coef n p q r s i j * coef n p' q' r' s' j k * (x ^ k * y ^ (n - k)) =
      coef n p q r s i j * ((p' * x + q' * y) ^ j * (r' * x + s' * y) ^ (n - j)) := by
    intro j hj
    rw [mem_range] at hj
    rw [← coef_gen n p' q' r' s' j (by omega), mul_sum]
    apply sum_congr rfl
    intro k _
    ring
  rw [sum_congr rfl this, coef_gen n p q r s i hi]
  congr 2 <;> ring

theorem coef_one (n i j : ℕ) (hi : i ≤ n) (hj : j ≤ n) : coef n 1 0 0 1 i j = if i = j then 1 else 0 := by
  apply indep n (fun j => coef n 1 0 0 1 i j) (fun j => if i = j then 1 else 0) _ j hj
  intro x y
  rw [coef_gen n _ _ _ _ i hi]
  simp only [ite_mul, one_mul, zero_mul, add_zero, zero_add]
  rw [sum_ite_eq, if_pos (by rw [mem_range]; omega)]

theorem coef_transpose (n : ℕ) (p q r s : ℂ) (i j : ℕ) (hi : i ≤ n) (hj : j ≤ n) :
    (n.choose i : ℂ) * coef n p q r s i j = (n.choose j : ℂ) * coef n p r q s j i := by
  have key : ∀ u v x y : ℂ,
      ∑ i ∈ range (n + 1), (∑ j ∈ range (n + 1), (n.choose i : ℂ) * coef n p q r s i j * (x ^ j * y ^ (n - j))) *
        (u ^ i * v ^ (n - i)) = (u * (p * x + q * y) + v * (r * x + s * y)) ^ n := by
    intro u v x y
    rw [add_pow]
    apply sum_congr rfl
    intro i hi
    rw [mem_range] at hi
    have : ∑ j ∈ range (n + 1), (n.choose i : ℂ) * coef n p q r s i j * (x ^ j * y ^ (n - j)) =
        (n.choose i : ℂ) * ((p * x + q * y) ^ i * (r * x + s * y) ^ (n - i)) := by
      rw [← coef_gen n p q r s i (by omega), mul_sum]
      apply sum_congr rfl
      intro j _
      ring
    rw [this]
    simp only [mul_pow]
    ring
  have key' : ∀ u v x y : ℂ,
      ∑ j ∈ range (n + 1), (∑ i ∈ range (n + 1), (n.choose j : ℂ) * coef n p r q s j i * (u ^ i * v ^ (n - i))) *
        (x ^ j * y ^ (n - j)) = (x * (p * u + r * v) + y * (q * u + s * v)) ^ n := by
    intro u v x y
    rw [add_pow]
    apply sum_congr rfl
    intro j hj
    rw [mem_range] at hj
    have : ∑ i ∈ range (n + 1), (n.choose j : ℂ) * coef n p r q s j i * (u ^ i * v ^ (n - i)) =
        (n.choose j : ℂ) * ((p * u + r * v) ^ j * (q * u + s * v) ^ (n - j)) := by
      rw [← coef_gen n p r q s j (by omega), mul_sum]
      apply sum_congr rfl
      intro i _
      ring
    rw [this]
    simp only [mul_pow]
    ring
  have h1 : ∀ x y : ℂ, ∑ j ∈ range (n + 1), (n.choose i : ℂ) * coef n p q r s i j * (x ^ j * y ^ (n - j)) =
      ∑ j ∈ range (n + 1), (n.choose j : ℂ) * coef n p r q s j i * (x ^ j * y ^ (n - j)) := by
    intro x y
    apply indep n (fun i => ∑ j ∈ range (n + 1), (n.choose i : ℂ) * coef n p q r s i j * (x ^ j * y ^ (n - j)))
      (fun i => ∑ j ∈ range (n + 1), (n.choose j : ℂ) * coef n p r q s j i * (x ^ j * y ^ (n - j))) _ i hi
    intro u v
    rw [key u v x y]
    have h2 := key' u v x y
    rw [show x * (p * u + r * v) + y * (q * u + s * v) = u * (p * x + q * y) + v * (r * x + s * y) by ring] at h2
    rw [← h2]
    simp only [sum_mul]
    rw [sum_comm]
    apply sum_congr rfl
    intro a _
    apply sum_congr rfl
    intro b _
    ring
  exact indep n _ _ h1 j hj

theorem conj_coef (n : ℕ) (p q r s : ℂ) (i j : ℕ) :
    conj (coef n p q r s i j) = coef n (conj p) (conj q) (conj r) (conj s) i j := by
  simp only [coef, map_sum, map_mul, map_pow, Complex.conj_natCast]

theorem nu_pos (n j : ℕ) : 0 < nu n j := by unfold nu; positivity

theorem nu_sq (n j : ℕ) : nu n j ^ 2 = (j.factorial : ℝ) * ((n - j).factorial : ℝ) := by
  unfold nu; rw [Real.sq_sqrt (by positivity)]

theorem choose_nu (n j : ℕ) (hj : j ≤ n) : (n.choose j : ℝ) * nu n j ^ 2 = (n.factorial : ℝ) := by
  rw [nu_sq, ← mul_assoc]
  exact_mod_cast Nat.choose_mul_factorial_mul_factorial hj

theorem Ra_mul (R S : Quaternion ℝ) : Ra (R * S) = Ra R * Ra S + -conj (Rb R) * Rb S := by
  apply Complex.ext <;> simp [Ra, Rb] <;> ring

theorem Rb_mul (R S : Quaternion ℝ) : Rb (R * S) = Rb R * Ra S + conj (Ra R) * Rb S := by
  apply Complex.ext <;> simp [Ra, Rb] <;> ring

/-- The matrices multiply like the rotors. -/
theorem D_mul (n : ℕ) (R S : Quaternion ℝ) (i k : ℕ) (hi : i ≤ n) (hk : k ≤ n) :
    D n (R * S) i k = ∑ j ∈ range (n + 1), D n R i j * D n S j k := by
  have h := coef_mul n (Ra R) (-conj (Rb R)) (Rb R) (conj (Ra R)) (Ra S) (-conj (Rb S)) (Rb S) (conj (Ra S))
    i k hi hk
  have e2 : -conj (Rb (R * S)) = Ra R * -conj (Rb S) + -conj (Rb R) * conj (Ra S) := by
    rw [Rb_mul]; simp only [map_add, map_mul, Complex.conj_conj]; ring
  have e4 : conj (Ra (R * S)) = Rb R * -conj (Rb S) + conj (Ra R) * conj (Ra S) := by
    rw [Ra_mul]; simp only [map_add, map_mul, map_neg, Complex.conj_conj]; ring
  unfold D
  rw [e2, e4, Ra_mul, Rb_mul, h, mul_sum]
  apply sum_congr rfl
  intro j _
  have hj := (nu_pos n j).ne'
  have : (nu n k / nu n i : ℝ) = (nu n j / nu n i) * (nu n k / nu n j) := by
    have := (nu_pos n i).ne'
    field_simp
  rw [this]
  push_cast
  ring

theorem D_one (n i j : ℕ) (hi : i ≤ n) (hj : j ≤ n) : D n 1 i j = if i = j then 1 else 0 := by
  have e1 : Ra 1 = 1 := by apply Complex.ext <;> rfl
  have e2 : Rb 1 = 0 := by apply Complex.ext <;> rfl
  unfold D
  rw [e1, e2]
  simp only [map_zero, neg_zero, map_one]
  rw [coef_one n i j hi hj]
  split
  · rename_i h; subst h
    rw [div_self (nu_pos n i).ne']; simp
  · simp

/-- The conjugate rotor has the conjugate transposed matrix. -/
theorem D_star (n : ℕ) (R : Quaternion ℝ) (i j : ℕ) (hi : i ≤ n) (hj : j ≤ n) :
    D n (star R) i j = conj (D n R j i) := by
  have e1 : Ra (star R) = conj (Ra R) := by apply Complex.ext <;> simp [Ra]
  have e2 : Rb (star R) = -Rb R := by apply Complex.ext <;> simp [Rb]
  unfold D
  rw [e1, e2, map_mul, Complex.conj_ofReal, conj_coef]
  simp only [map_neg, Complex.conj_conj, neg_neg]
  have h := coef_transpose n (conj (Ra R)) (conj (Rb R)) (-Rb R) (Ra R) i j hi hj
  have ci : (n.choose i : ℂ) * ((nu n i : ℝ) : ℂ) ^ 2 = (n.factorial : ℂ) := by
    exact_mod_cast congrArg (fun x : ℝ => (x : ℂ)) (choose_nu n i hi)
  have cj : (n.choose j : ℂ) * ((nu n j : ℝ) : ℂ) ^ 2 = (n.factorial : ℂ) := by
    exact_mod_cast congrArg (fun x : ℝ => (x : ℂ)) (choose_nu n j hj)
  have ni : ((nu n i : ℝ) : ℂ) ≠ 0 := by exact_mod_cast (nu_pos n i).ne'
  have nj : ((nu n j : ℝ) : ℂ) ≠ 0 := by exact_mod_cast (nu_pos n j).ne'
  have nc : (n.choose i : ℂ) ≠ 0 := by exact_mod_cast (Nat.choose_pos hi).ne'
  push_cast
  field_simp
  apply mul_left_cancel₀ nc
  linear_combination ((nu n j : ℝ) : ℂ) ^ 2 * h + (coef n (conj (Ra R)) (-Rb R) (conj (Rb R)) (Ra R) j i) * (cj - ci)

/-- The matrices of unit rotors are unitary. -/
theorem D_unitary (n : ℕ) (R : Quaternion ℝ) (hR : star R * R = 1) (i k : ℕ) (hi : i ≤ n) (hk : k ≤ n) :
    ∑ j ∈ range (n + 1), conj (D n R j i) * D n R j k = if i = k then 1 else 0 := by
  rw [← D_one n i k hi hk, ← hR, D_mul n _ _ i k hi hk]
  apply sum_congr rfl
  intro j hj
  rw [mem_range] at hj
  rw [D_star n R i j hi (by omega)]

end Verif.Wigner
