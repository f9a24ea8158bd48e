import Verif.Lemmas.Wigner
import Mathlib.Algebra.Polynomial.Derivative
import Mathlib.LinearAlgebra.Finsupp.LinearCombination
import Mathlib.LinearAlgebra.Span.Basic
import Mathlib.Algebra.Algebra.Pi

/-!
# Products of elements of Wigner D matrices

The product of two elements is a combination of elements of lower and equal order (the Clebsch-Gordan series; the coefficients are not needed).
-/

namespace Verif.Wigner
open Finset Polynomial

/-- The generating function of a row as a polynomial. -/
theorem coef_coeff (n : ℕ) (p q r s : ℂ) (i : ℕ) (hi : i ≤ n) (j : ℕ) :
    coef n p q r s i j = ((C p * X + C q) ^ i * (C r * X + C s) ^ (n - i)).coeff j := by
  have key : (∑ j ∈ range (n + 1), C (coef n p q r s i j) * X ^ j) = (C p * X + C q) ^ i * (C r * X + C s) ^ (n - i) := by
    apply Polynomial.funext
    intro x
    have := coef_gen n p q r s i hi x 1
    simp only [one_pow, mul_one] at this
    simp only [eval_finsetSum, eval_mul, eval_C, eval_pow, eval_X, eval_add]
    exact this
  rw [← key, finsetSum_coeff]
  simp only [coeff_C_mul, coeff_X_pow, mul_ite, mul_one, mul_zero]
  by_cases hj : j ≤ n
  · rw [sum_ite_eq, if_pos (by rw [mem_range]; omega)]
  · rw [sum_ite_eq, if_neg (by rw [mem_range]; omega)]
    unfold coef
    rw [filter_false_of_mem (fun ρ _ => by omega), sum_empty]

/-- The matrices of determinant 1. -/
abbrev SL := { x : ℂ × ℂ × ℂ × ℂ // x.1 * x.2.2.2 - x.2.1 * x.2.2.1 = 1 }

/-- An element as a function of the matrix. -/
noncomputable def cf (n i j : ℕ) : SL → ℂ := fun M => coef n M.1.1 M.1.2.1 M.1.2.2.1 M.1.2.2.2 i j

def fp : SL → ℂ := fun M => M.1.1
def fq : SL → ℂ := fun M => M.1.2.1
def fr : SL → ℂ := fun M => M.1.2.2.1
def fs : SL → ℂ := fun M => M.1.2.2.2

/-- The elements that occur in products: `k` below the highest order. -/
noncomputable def term (N a b k : ℕ) : SL → ℂ := if k ≤ a ∧ k ≤ b ∧ k + a ≤ N ∧ k + b ≤ N then cf (N - 2 * k) (a - k) (b - k) else 0

/-- Their combinations. -/
noncomputable def Comb (N a b : ℕ) : Submodule ℂ (SL → ℂ) := Submodule.span ℂ (Set.range (term N a b))

theorem cf_large {n i j : ℕ} (hj : n < j) : cf n i j = 0 := by
  funext M
  show coef _ _ _ _ _ _ _ = 0
  unfold coef
  rw [filter_false_of_mem (fun ρ _ => by omega), sum_empty]

theorem cf_mem {N a b : ℕ} (k : ℕ) (h : k ≤ a ∧ k ≤ b ∧ k + a ≤ N ∧ k + b ≤ N) : cf (N - 2 * k) (a - k) (b - k) ∈ Comb N a b := by
  have : term N a b k ∈ Comb N a b := Submodule.subset_span ⟨k, rfl⟩
  rwa [term, if_pos h] at this

/-- Multiplication with one of the four entries. -/
theorem up {N a b N' a' b' : ℕ} (g : SL → ℂ) (h : ∀ k, k ≤ a ∧ k ≤ b ∧ k + a ≤ N ∧ k + b ≤ N → g * cf (N - 2 * k) (a - k) (b - k) ∈ Comb N' a' b') (φ : SL → ℂ) (hφ : φ ∈ Comb N a b) : g * φ ∈ Comb N' a' b' := by
  induction hφ using Submodule.span_induction with
  | mem x hx =>
    obtain ⟨k, rfl⟩ := hx
    unfold term
    split_ifs with hk
    · exact h k hk
    · rw [mul_zero]; exact Submodule.zero_mem _
  | zero => rw [mul_zero]; exact Submodule.zero_mem _
  | add x y _ _ hx hy => rw [mul_add]; exact Submodule.add_mem _ hx hy
  | smul c x _ hx => rw [mul_smul_comm]; exact Submodule.smul_mem _ c hx

theorem det_poly {p q r s : ℂ} (hd : p * s - q * r = 1) : (C p * C s - C q * C r : ℂ[X]) = 1 := by
  rw [← C_mul, ← C_mul, ← C_sub, hd, C_1]

theorem der_poly (p q r s : ℂ) (i k : ℕ) : derivative ((C p * X + C q) ^ i * (C r * X + C s) ^ k) =
    (i : ℂ[X]) * C p * ((C p * X + C q) ^ (i - 1) * (C r * X + C s) ^ k) + (k : ℂ[X]) * C r * ((C p * X + C q) ^ i * (C r * X + C s) ^ (k - 1)) := by
  simp only [derivative_mul, derivative_pow, derivative_add, derivative_C, derivative_X, zero_mul, mul_one, zero_add, add_zero, C_eq_natCast]
  ring

theorem poly_p {p q r s : ℂ} (hd : p * s - q * r = 1) (i k : ℕ) : ((i : ℂ[X]) + (k : ℂ[X]) + 1) * (C p * ((C p * X + C q) ^ i * (C r * X + C s) ^ k)) =
    derivative ((C p * X + C q) ^ (i + 1) * (C r * X + C s) ^ k) + (k : ℂ[X]) * ((C p * X + C q) ^ i * (C r * X + C s) ^ (k - 1)) := by
  have h := det_poly hd
  rw [der_poly]
  cases k with
  | zero => push_cast; ring_nf; try simp
  | succ k =>
    simp only [Nat.add_sub_cancel]
    push_cast
    linear_combination (k + 1) * ((C p * X + C q) ^ i * (C r * X + C s) ^ k) * h

theorem poly_r {p q r s : ℂ} (hd : p * s - q * r = 1) (i k : ℕ) : ((i : ℂ[X]) + (k : ℂ[X]) + 1) * (C r * ((C p * X + C q) ^ i * (C r * X + C s) ^ k)) =
    derivative ((C p * X + C q) ^ i * (C r * X + C s) ^ (k + 1)) - (i : ℂ[X]) * ((C p * X + C q) ^ (i - 1) * (C r * X + C s) ^ k) := by
  have h := det_poly hd
  rw [der_poly]
  cases i with
  | zero => push_cast; ring_nf; try simp
  | succ i =>
    simp only [Nat.add_sub_cancel]
    push_cast
    linear_combination -(i + 1) * ((C p * X + C q) ^ i * (C r * X + C s) ^ k) * h

theorem poly_q {p q r s : ℂ} (hd : p * s - q * r = 1) (i k : ℕ) : ((i : ℂ[X]) + (k : ℂ[X]) + 1) * (C q * ((C p * X + C q) ^ i * (C r * X + C s) ^ k)) =
    ((i : ℂ[X]) + (k : ℂ[X]) + 1) * ((C p * X + C q) ^ (i + 1) * (C r * X + C s) ^ k) - X * derivative ((C p * X + C q) ^ (i + 1) * (C r * X + C s) ^ k) -
      (k : ℂ[X]) * (X * ((C p * X + C q) ^ i * (C r * X + C s) ^ (k - 1))) := by
  linear_combination -X * poly_p hd i k

theorem poly_s {p q r s : ℂ} (hd : p * s - q * r = 1) (i k : ℕ) : ((i : ℂ[X]) + (k : ℂ[X]) + 1) * (C s * ((C p * X + C q) ^ i * (C r * X + C s) ^ k)) =
    ((i : ℂ[X]) + (k : ℂ[X]) + 1) * ((C p * X + C q) ^ i * (C r * X + C s) ^ (k + 1)) - X * derivative ((C p * X + C q) ^ i * (C r * X + C s) ^ (k + 1)) +
      (i : ℂ[X]) * (X * ((C p * X + C q) ^ (i - 1) * (C r * X + C s) ^ k)) := by
  linear_combination -X * poly_r hd i k

theorem coef_poly (p q r s : ℂ) (i k j : ℕ) : coef (i + k) p q r s i j = ((C p * X + C q) ^ i * (C r * X + C s) ^ k).coeff j := by
  rw [coef_coeff _ _ _ _ _ _ (by omega), Nat.add_sub_cancel_left]

theorem nat_coeff (P : ℂ[X]) (i k j : ℕ) : (((i : ℂ[X]) + (k : ℂ[X]) + 1) * P).coeff j = ((i : ℂ) + k + 1) * P.coeff j := by
  have : ((i : ℂ[X]) + (k : ℂ[X]) + 1) = C ((i : ℂ) + k + 1) := by simp
  rw [this, coeff_C_mul]

theorem nat_coeff' (P : ℂ[X]) (k j : ℕ) : ((k : ℂ[X]) * P).coeff j = (k : ℂ) * P.coeff j := by
  rw [← C_eq_natCast, coeff_C_mul]

theorem rule_p {p q r s : ℂ} (hd : p * s - q * r = 1) (i k j : ℕ) : ((i : ℂ) + k + 1) * (p * coef (i + k) p q r s i j) =
    ((j : ℂ) + 1) * coef (i + 1 + k) p q r s (i + 1) (j + 1) + (k : ℂ) * coef (i + (k - 1)) p q r s i j := by
  have := congrArg (fun P : ℂ[X] => P.coeff j) (poly_p hd i k)
  simp only [nat_coeff, nat_coeff', coeff_C_mul, coeff_add, coeff_derivative] at this
  rw [coef_poly, coef_poly, coef_poly, this]
  ring

theorem rule_r {p q r s : ℂ} (hd : p * s - q * r = 1) (i k j : ℕ) : ((i : ℂ) + k + 1) * (r * coef (i + k) p q r s i j) =
    ((j : ℂ) + 1) * coef (i + (k + 1)) p q r s i (j + 1) - (i : ℂ) * coef (i - 1 + k) p q r s (i - 1) j := by
  have := congrArg (fun P : ℂ[X] => P.coeff j) (poly_r hd i k)
  simp only [nat_coeff, nat_coeff', coeff_C_mul, coeff_sub, coeff_derivative] at this
  rw [coef_poly, coef_poly, coef_poly, this]
  ring

theorem X_der (P : ℂ[X]) (j : ℕ) : (X * derivative P).coeff j = j * P.coeff j := by
  cases j with
  | zero => simp
  | succ j => rw [coeff_X_mul, coeff_derivative]; push_cast; ring

theorem rule_q {p q r s : ℂ} (hd : p * s - q * r = 1) (i k j : ℕ) : ((i : ℂ) + k + 1) * (q * coef (i + k) p q r s i j) =
    ((i : ℂ) + k + 1 - j) * coef (i + 1 + k) p q r s (i + 1) j - (k : ℂ) * (if j = 0 then 0 else coef (i + (k - 1)) p q r s i (j - 1)) := by
  have := congrArg (fun P : ℂ[X] => P.coeff j) (poly_q hd i k)
  simp only [nat_coeff, nat_coeff', coeff_C_mul, coeff_sub, X_der] at this
  rw [coef_poly, coef_poly, coef_poly, this]
  cases j with
  | zero => simp
  | succ j => rw [coeff_X_mul, if_neg (by omega), Nat.add_sub_cancel]; ring

theorem rule_s {p q r s : ℂ} (hd : p * s - q * r = 1) (i k j : ℕ) : ((i : ℂ) + k + 1) * (s * coef (i + k) p q r s i j) =
    ((i : ℂ) + k + 1 - j) * coef (i + (k + 1)) p q r s i j + (i : ℂ) * (if j = 0 then 0 else coef (i - 1 + k) p q r s (i - 1) (j - 1)) := by
  have := congrArg (fun P : ℂ[X] => P.coeff j) (poly_s hd i k)
  simp only [nat_coeff, nat_coeff', coeff_C_mul, coeff_sub, coeff_add, X_der] at this
  rw [coef_poly, coef_poly, coef_poly, this]
  cases j with
  | zero => simp
  | succ j => rw [coeff_X_mul, if_neg (by omega), Nat.add_sub_cancel]; ring

/-- A function that is, up to a factor that is not 0, a combination of two. -/
theorem two_mem {S : Submodule ℂ (SL → ℂ)} {f g h : SL → ℂ} (c a b : ℂ) (hc : c ≠ 0) (hg : a = 0 ∨ g ∈ S) (hh : b = 0 ∨ h ∈ S) (e : ∀ M, c * f M = a * g M + b * h M) : f ∈ S := by
  have : f = c⁻¹ • (a • g + b • h) := by
    funext M
    show f M = c⁻¹ * (a * g M + b * h M)
    rw [← e M]
    field_simp
  rw [this]
  refine Submodule.smul_mem _ _ (Submodule.add_mem _ ?_ ?_)
  · rcases hg with rfl | hg
    · rw [zero_smul]; exact Submodule.zero_mem _
    · exact Submodule.smul_mem _ _ hg
  · rcases hh with rfl | hh
    · rw [zero_smul]; exact Submodule.zero_mem _
    · exact Submodule.smul_mem _ _ hh

theorem pos_ne (i k : ℕ) : ((i : ℂ) + k + 1) ≠ 0 := by exact_mod_cast (by omega : i + k + 1 ≠ 0)

theorem mem' {N a b n i j : ℕ} (k : ℕ) (h : n + 2 * k = N ∧ i + k = a ∧ j + k = b ∧ i ≤ n) : cf n i j ∈ Comb N a b := by
  obtain ⟨rfl, rfl, rfl, h⟩ := h
  by_cases hj : j ≤ n
  · have := cf_mem (N := n + 2 * k) (a := i + k) (b := j + k) k (by omega)
    simpa using this
  · rw [cf_large (by omega)]
    exact Submodule.zero_mem _

theorem mul_p {N a b : ℕ} (φ : SL → ℂ) (hφ : φ ∈ Comb N a b) : fp * φ ∈ Comb (N + 1) (a + 1) (b + 1) := by
  refine up fp (fun k hk => ?_) φ hφ
  obtain ⟨d, hd⟩ : ∃ d, N - 2 * k = a - k + d := ⟨N - k - a, by omega⟩
  generalize hi : a - k = i at *
  generalize hj : b - k = j at *
  rw [hd]
  refine two_mem (g := cf (i + 1 + d) (i + 1) (j + 1)) (h := cf (i + (d - 1)) i j) _ _ _ (pos_ne i d) (.inr (mem' k (by omega))) ?_ fun M => rule_p M.2 i d j
  rcases d with _ | d
  · left; simp
  · right; exact mem' (k + 1) (by omega)

theorem mul_r {N a b : ℕ} (φ : SL → ℂ) (hφ : φ ∈ Comb N a b) : fr * φ ∈ Comb (N + 1) a (b + 1) := by
  refine up fr (fun k hk => ?_) φ hφ
  obtain ⟨d, hd⟩ : ∃ d, N - 2 * k = a - k + d := ⟨N - k - a, by omega⟩
  generalize hi : a - k = i at *
  generalize hj : b - k = j at *
  rw [hd]
  refine two_mem (g := cf (i + (d + 1)) i (j + 1)) (h := cf (i - 1 + d) (i - 1) j) _ ((j : ℂ) + 1) (-(i : ℂ)) (pos_ne i d) (.inr (mem' k (by omega))) ?_ fun M => (rule_r M.2 i d j).trans (by rw [sub_eq_add_neg, neg_mul]; rfl)
  rcases i with _ | i
  · left; simp
  · right; exact mem' (k + 1) (by omega)

theorem mul_q {N a b : ℕ} (φ : SL → ℂ) (hφ : φ ∈ Comb N a b) : fq * φ ∈ Comb (N + 1) (a + 1) b := by
  refine up fq (fun k hk => ?_) φ hφ
  obtain ⟨d, hd⟩ : ∃ d, N - 2 * k = a - k + d := ⟨N - k - a, by omega⟩
  generalize hi : a - k = i at *
  generalize hj : b - k = j at *
  rw [hd]
  refine two_mem (g := cf (i + 1 + d) (i + 1) j) (h := if j = 0 then 0 else cf (i + (d - 1)) i (j - 1)) _ ((i : ℂ) + d + 1 - j) (-(d : ℂ)) (pos_ne i d) (.inr (mem' k (by omega))) ?_ fun M =>
    (rule_q M.2 i d j).trans (by rw [sub_eq_add_neg, neg_mul]; congr 2; split_ifs <;> rfl)
  rcases d with _ | d
  · left; simp
  · right
    split_ifs
    · exact Submodule.zero_mem _
    · exact mem' (k + 1) (by omega)

theorem mul_s {N a b : ℕ} (φ : SL → ℂ) (hφ : φ ∈ Comb N a b) : fs * φ ∈ Comb (N + 1) a b := by
  refine up fs (fun k hk => ?_) φ hφ
  obtain ⟨d, hd⟩ : ∃ d, N - 2 * k = a - k + d := ⟨N - k - a, by omega⟩
  generalize hi : a - k = i at *
  generalize hj : b - k = j at *
  rw [hd]
  refine two_mem (g := cf (i + (d + 1)) i j) (h := if j = 0 then 0 else cf (i - 1 + d) (i - 1) (j - 1)) _ ((i : ℂ) + d + 1 - j) (i : ℂ) (pos_ne i d) (.inr (mem' k (by omega))) ?_ fun M =>
    (rule_s M.2 i d j).trans (by congr 2; split_ifs <;> rfl)
  rcases i with _ | i
  · left; simp
  · right
    split_ifs
    · exact Submodule.zero_mem _
    · exact mem' (k + 1) (by omega)

/-- The product of an element with a combination. -/
theorem mul_comb (n : ℕ) : ∀ (i j N a b : ℕ) (φ : SL → ℂ), i ≤ n → φ ∈ Comb N a b → cf n i j * φ ∈ Comb (N + n) (a + i) (b + j) := by
  induction n with
  | zero =>
    intro i j N a b φ hi hφ
    obtain rfl : i = 0 := by omega
    cases j with
    | zero =>
      have : cf 0 0 0 = 1 := by
        funext M
        show coef 0 _ _ _ _ 0 0 = 1
        rw [coef_coeff _ _ _ _ _ _ le_rfl]
        simp
      rw [this, one_mul]
      exact hφ
    | succ j =>
      rw [cf_large (by omega), zero_mul]
      exact Submodule.zero_mem _
  | succ n ih =>
    intro i j N a b φ hi hφ
    cases i with
    | zero =>
      cases j with
      | zero =>
        have e : cf (n + 1) 0 0 * φ = cf n 0 0 * (fs * φ) := by
          funext M
          show coef (n + 1) _ _ _ _ 0 0 * φ M = coef n _ _ _ _ 0 0 * (M.1.2.2.2 * φ M)
          rw [coef_coeff _ _ _ _ _ _ (by omega), coef_coeff _ _ _ _ _ _ (by omega)]
          simp only [pow_zero, one_mul, Nat.sub_zero, pow_succ, coeff_zero_eq_eval_zero, eval_mul, eval_pow, eval_add, eval_C, eval_X]
          ring
        rw [e]
        have := ih 0 0 _ _ _ _ (by omega) (mul_s φ hφ)
        convert this using 1
        congr 1; omega
      | succ j =>
        have e : cf (n + 1) 0 (j + 1) * φ = cf n 0 j * (fr * φ) + cf n 0 (j + 1) * (fs * φ) := by
          funext M
          show coef (n + 1) _ _ _ _ 0 (j + 1) * φ M = coef n _ _ _ _ 0 j * (M.1.2.2.1 * φ M) + coef n _ _ _ _ 0 (j + 1) * (M.1.2.2.2 * φ M)
          rw [coef_coeff _ _ _ _ _ _ (by omega), coef_coeff _ _ _ _ _ _ (by omega), coef_coeff _ _ _ _ _ _ (by omega)]
          simp only [pow_zero, one_mul, Nat.sub_zero]
          rw [pow_succ', add_mul, coeff_add, mul_assoc, coeff_C_mul, coeff_X_mul, coeff_C_mul]
          ring
        rw [e]
        refine Submodule.add_mem _ ?_ ?_
        · have := ih 0 j _ _ _ _ (by omega) (mul_r φ hφ)
          convert this using 1
          congr 1 <;> omega
        · have := ih 0 (j + 1) _ _ _ _ (by omega) (mul_s φ hφ)
          convert this using 1
          congr 1; omega
    | succ i =>
      cases j with
      | zero =>
        have e : cf (n + 1) (i + 1) 0 * φ = cf n i 0 * (fq * φ) := by
          funext M
          show coef (n + 1) _ _ _ _ (i + 1) 0 * φ M = coef n _ _ _ _ i 0 * (M.1.2.1 * φ M)
          rw [coef_coeff _ _ _ _ _ _ (by omega), coef_coeff _ _ _ _ _ _ (by omega), Nat.add_sub_add_right]
          simp only [pow_succ, coeff_zero_eq_eval_zero, eval_mul, eval_pow, eval_add, eval_C, eval_X]
          ring
        rw [e]
        have := ih i 0 _ _ _ _ (by omega) (mul_q φ hφ)
        convert this using 1
        congr 1 <;> omega
      | succ j =>
        have e : cf (n + 1) (i + 1) (j + 1) * φ = cf n i j * (fp * φ) + cf n i (j + 1) * (fq * φ) := by
          funext M
          show coef (n + 1) _ _ _ _ (i + 1) (j + 1) * φ M = coef n _ _ _ _ i j * (M.1.1 * φ M) + coef n _ _ _ _ i (j + 1) * (M.1.2.1 * φ M)
          rw [coef_coeff _ _ _ _ _ _ (by omega), coef_coeff _ _ _ _ _ _ (by omega), coef_coeff _ _ _ _ _ _ (by omega), Nat.add_sub_add_right]
          rw [pow_succ', mul_assoc, add_mul, coeff_add, mul_assoc (C _) X, coeff_C_mul, coeff_X_mul, coeff_C_mul]
          ring
        rw [e]
        refine Submodule.add_mem _ ?_ ?_
        · have := ih i j _ _ _ _ (by omega) (mul_p φ hφ)
          convert this using 1
          congr 1 <;> omega
        · have := ih i (j + 1) _ _ _ _ (by omega) (mul_q φ hφ)
          convert this using 1
          congr 1 <;> omega

/-- The product of two elements. -/
theorem cf_mul_cf (n i j n' i' j' : ℕ) (h : i ≤ n) (h' : i' ≤ n') : cf n i j * cf n' i' j' ∈ Comb (n' + n) (i' + i) (j' + j) :=
  mul_comb n i j n' i' j' _ h (mem' 0 (by omega))

end Verif.Wigner
