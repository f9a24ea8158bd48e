import Verif.Lemmas.WignerProduct
import Verif.Lemmas.Clebsch
import Verif.Lemmas.GridMultiply

/-!
# Products of elements of Wigner D matrices with those for angular momentum 1

The coefficients are those of the table of `clebsch_gordan` in `Model/Flux`.
-/

namespace Verif.Wigner
open Finset

/-- The elements with integer indices, zero outside. -/
noncomputable def C3 (p q r s : ℂ) (n i j : Int) : ℂ := if 0 ≤ i ∧ i ≤ n ∧ 0 ≤ j then coef n.toNat p q r s i.toNat j.toNat else 0

theorem C3_nat (p q r s : ℂ) (n i j : ℕ) (h : i ≤ n) : C3 p q r s n i j = coef n p q r s i j := by
  unfold C3
  rw [if_pos (by omega)]
  simp

theorem C3_neg {p q r s : ℂ} {n i j : Int} (h : ¬ (0 ≤ i ∧ i ≤ n ∧ 0 ≤ j)) : C3 p q r s n i j = 0 := if_neg h

theorem C3_large {p q r s : ℂ} {n i j : Int} (h : n < j) : C3 p q r s n i j = 0 := by
  unfold C3
  split_ifs with h1
  · unfold coef
    rw [filter_false_of_mem (fun ρ _ => by omega), sum_empty]
  · rfl

section
variable {p q r s : ℂ} (hd : p * s - q * r = 1)
include hd

theorem C3_p (n i j : Int) (h0 : 0 ≤ i) (h1 : i ≤ n) : (n + 1 : ℂ) * (p * C3 p q r s n i j) = (j + 1 : ℂ) * C3 p q r s (n + 1) (i + 1) (j + 1) + (n - i : ℂ) * C3 p q r s (n - 1) i j := by
  by_cases hj : 0 ≤ j
  · obtain ⟨i', rfl⟩ := Int.eq_ofNat_of_zero_le h0
    obtain ⟨j', rfl⟩ := Int.eq_ofNat_of_zero_le hj
    obtain ⟨k, hk⟩ := Int.eq_ofNat_of_zero_le (sub_nonneg.mpr h1)
    obtain rfl : n = ((i' + k : ℕ) : Int) := by push_cast; omega
    have := rule_p hd i' k j'
    rw [C3_nat _ _ _ _ _ _ _ (by omega)]
    have e1 : C3 p q r s (((i' + k : ℕ) : Int) + 1) ((i' : Int) + 1) ((j' : Int) + 1) = coef (i' + 1 + k) p q r s (i' + 1) (j' + 1) := by
      have := C3_nat p q r s (i' + 1 + k) (i' + 1) (j' + 1) (by omega)
      rw [← this]
      congr 1
      push_cast
      ring
    rw [e1]
    rcases Nat.eq_zero_or_pos k with rfl | hk0
    · simp only [Nat.add_zero, Nat.cast_zero, zero_mul, add_zero] at this ⊢
      push_cast
      rw [sub_self, zero_mul, add_zero]
      exact this
    · have e2 : C3 p q r s (((i' + k : ℕ) : Int) - 1) (i' : Int) (j' : Int) = coef (i' + (k - 1)) p q r s i' j' := by
        rw [← C3_nat p q r s (i' + (k - 1)) i' j' (by omega)]
        congr 1
        omega
      rw [e2]
      push_cast
      linear_combination this
  · rw [C3_neg (by omega), C3_neg (i := i) (n := n - 1) (by omega)]
    rcases lt_or_eq_of_le (by omega : j ≤ -1) with h | rfl
    · rw [C3_neg (by omega)]
      ring
    · push_cast
      ring

theorem C3_r (n i j : Int) (h0 : 0 ≤ i) (h1 : i ≤ n) : (n + 1 : ℂ) * (r * C3 p q r s n i j) = (j + 1 : ℂ) * C3 p q r s (n + 1) i (j + 1) - (i : ℂ) * C3 p q r s (n - 1) (i - 1) j := by
  by_cases hj : 0 ≤ j
  · obtain ⟨i', rfl⟩ := Int.eq_ofNat_of_zero_le h0
    obtain ⟨j', rfl⟩ := Int.eq_ofNat_of_zero_le hj
    obtain ⟨k, hk⟩ := Int.eq_ofNat_of_zero_le (sub_nonneg.mpr h1)
    obtain rfl : n = ((i' + k : ℕ) : Int) := by push_cast; omega
    have := rule_r hd i' k j'
    rw [C3_nat _ _ _ _ _ _ _ (by omega)]
    have e1 : C3 p q r s (((i' + k : ℕ) : Int) + 1) (i' : Int) ((j' : Int) + 1) = coef (i' + (k + 1)) p q r s i' (j' + 1) := by
      rw [← C3_nat p q r s (i' + (k + 1)) i' (j' + 1) (by omega)]
      congr 1
    rw [e1]
    rcases Nat.eq_zero_or_pos i' with rfl | hk0
    · simp only [Nat.cast_zero, zero_mul, sub_zero, Int.cast_natCast] at this ⊢
      push_cast
      push_cast at this
      rw [zero_mul, sub_zero]
      linear_combination this
    · have e2 : C3 p q r s (((i' + k : ℕ) : Int) - 1) ((i' : Int) - 1) (j' : Int) = coef (i' - 1 + k) p q r s (i' - 1) j' := by
        rw [← C3_nat p q r s (i' - 1 + k) (i' - 1) j' (by omega)]
        congr 1 <;> omega
      rw [e2]
      push_cast
      linear_combination this
  · rw [C3_neg (by omega), C3_neg (i := i - 1) (n := n - 1) (by omega)]
    rcases lt_or_eq_of_le (by omega : j ≤ -1) with h | rfl
    · rw [C3_neg (by omega)]
      ring
    · push_cast
      ring

theorem C3_q (n i j : Int) (h0 : 0 ≤ i) (h1 : i ≤ n) : (n + 1 : ℂ) * (q * C3 p q r s n i j) = (n + 1 - j : ℂ) * C3 p q r s (n + 1) (i + 1) j - (n - i : ℂ) * C3 p q r s (n - 1) i (j - 1) := by
  by_cases hj : 0 ≤ j
  · obtain ⟨i', rfl⟩ := Int.eq_ofNat_of_zero_le h0
    obtain ⟨j', rfl⟩ := Int.eq_ofNat_of_zero_le hj
    obtain ⟨k, hk⟩ := Int.eq_ofNat_of_zero_le (sub_nonneg.mpr h1)
    obtain rfl : n = ((i' + k : ℕ) : Int) := by push_cast; omega
    have := rule_q hd i' k j'
    rw [C3_nat _ _ _ _ _ _ _ (by omega)]
    have e1 : C3 p q r s (((i' + k : ℕ) : Int) + 1) ((i' : Int) + 1) (j' : Int) = coef (i' + 1 + k) p q r s (i' + 1) j' := by
      rw [← C3_nat p q r s (i' + 1 + k) (i' + 1) j' (by omega)]
      congr 1
      push_cast
      ring
    rw [e1]
    rcases Nat.eq_zero_or_pos k with rfl | hk0
    · simp only [Nat.add_zero, Nat.cast_zero, zero_mul, sub_zero, add_zero] at this ⊢
      push_cast
      rw [sub_self, zero_mul, sub_zero]
      exact this
    · have e2 : C3 p q r s (((i' + k : ℕ) : Int) - 1) (i' : Int) ((j' : Int) - 1) = if j' = 0 then 0 else coef (i' + (k - 1)) p q r s i' (j' - 1) := by
        split_ifs with h
        · exact C3_neg (by omega)
        · rw [← C3_nat p q r s (i' + (k - 1)) i' (j' - 1) (by omega)]
          congr 1 <;> omega
      rw [e2]
      push_cast
      linear_combination this
  · rw [C3_neg (by omega), C3_neg (i := i) (n := n - 1) (by omega), C3_neg (by omega)]
    ring

theorem C3_s (n i j : Int) (h0 : 0 ≤ i) (h1 : i ≤ n) : (n + 1 : ℂ) * (s * C3 p q r s n i j) = (n + 1 - j : ℂ) * C3 p q r s (n + 1) i j + (i : ℂ) * C3 p q r s (n - 1) (i - 1) (j - 1) := by
  by_cases hj : 0 ≤ j
  · obtain ⟨i', rfl⟩ := Int.eq_ofNat_of_zero_le h0
    obtain ⟨j', rfl⟩ := Int.eq_ofNat_of_zero_le hj
    obtain ⟨k, hk⟩ := Int.eq_ofNat_of_zero_le (sub_nonneg.mpr h1)
    obtain rfl : n = ((i' + k : ℕ) : Int) := by push_cast; omega
    have := rule_s hd i' k j'
    rw [C3_nat _ _ _ _ _ _ _ (by omega)]
    have e1 : C3 p q r s (((i' + k : ℕ) : Int) + 1) (i' : Int) (j' : Int) = coef (i' + (k + 1)) p q r s i' j' := by
      rw [← C3_nat p q r s (i' + (k + 1)) i' j' (by omega)]
      congr 1
    rw [e1]
    rcases Nat.eq_zero_or_pos i' with rfl | hk0
    · simp only [Nat.cast_zero, zero_mul, add_zero, Int.cast_natCast] at this ⊢
      push_cast
      push_cast at this
      rw [zero_mul, add_zero]
      linear_combination this
    · have e2 : C3 p q r s (((i' + k : ℕ) : Int) - 1) ((i' : Int) - 1) ((j' : Int) - 1) = if j' = 0 then 0 else coef (i' - 1 + k) p q r s (i' - 1) (j' - 1) := by
        split_ifs with h
        · exact C3_neg (by omega)
        · rw [← C3_nat p q r s (i' - 1 + k) (i' - 1) (j' - 1) (by omega)]
          congr 1 <;> omega
      rw [e2]
      push_cast
      linear_combination this
  · rw [C3_neg (by omega), C3_neg (i := i - 1) (n := n - 1) (by omega), C3_neg (by omega)]
    ring

/-- The same at the next higher order. -/
theorem up_p (n i j : Int) (h0 : 0 ≤ i) (h1 : i ≤ n + 1) : (n + 2 : ℂ) * (p * C3 p q r s (n + 1) i j) = (j + 1 : ℂ) * C3 p q r s (n + 2) (i + 1) (j + 1) + (n + 1 - i : ℂ) * C3 p q r s n i j := by
  have := C3_p hd (n + 1) i j h0 h1
  rw [add_assoc, add_sub_cancel_right] at this
  push_cast at this
  linear_combination this
theorem up_r (n i j : Int) (h0 : 0 ≤ i) (h1 : i ≤ n + 1) : (n + 2 : ℂ) * (r * C3 p q r s (n + 1) i j) = (j + 1 : ℂ) * C3 p q r s (n + 2) i (j + 1) - (i : ℂ) * C3 p q r s n (i - 1) j := by
  have := C3_r hd (n + 1) i j h0 h1
  rw [add_assoc, add_sub_cancel_right] at this
  push_cast at this
  linear_combination this
theorem up_q (n i j : Int) (h0 : 0 ≤ i) (h1 : i ≤ n + 1) : (n + 2 : ℂ) * (q * C3 p q r s (n + 1) i j) = (n + 2 - j : ℂ) * C3 p q r s (n + 2) (i + 1) j - (n + 1 - i : ℂ) * C3 p q r s n i (j - 1) := by
  have := C3_q hd (n + 1) i j h0 h1
  rw [add_assoc, add_sub_cancel_right] at this
  push_cast at this
  linear_combination this
theorem up_s (n i j : Int) (h0 : 0 ≤ i) (h1 : i ≤ n + 1) : (n + 2 : ℂ) * (s * C3 p q r s (n + 1) i j) = (n + 2 - j : ℂ) * C3 p q r s (n + 2) i j + (i : ℂ) * C3 p q r s n (i - 1) (j - 1) := by
  have := C3_s hd (n + 1) i j h0 h1
  rw [add_assoc, add_sub_cancel_right] at this
  push_cast at this
  linear_combination this

/-- ... and at the next lower one. -/
theorem down_p (n i j : Int) (c : ℂ) (h : c = 0 ∨ (0 ≤ i ∧ i ≤ n - 1)) : c * ((n : ℂ) * (p * C3 p q r s (n - 1) i j)) = c * ((j + 1 : ℂ) * C3 p q r s n (i + 1) (j + 1) + (n - 1 - i : ℂ) * C3 p q r s (n - 2) i j) := by
  rcases h with rfl | ⟨h0, h1⟩
  · ring
  · have := C3_p hd (n - 1) i j h0 h1
    rw [sub_add_cancel, sub_sub] at this
    push_cast at this
    linear_combination c * this
theorem down_r (n i j : Int) (c : ℂ) (h : c = 0 ∨ (0 ≤ i ∧ i ≤ n - 1)) : c * ((n : ℂ) * (r * C3 p q r s (n - 1) i j)) = c * ((j + 1 : ℂ) * C3 p q r s n i (j + 1) - (i : ℂ) * C3 p q r s (n - 2) (i - 1) j) := by
  rcases h with rfl | ⟨h0, h1⟩
  · ring
  · have := C3_r hd (n - 1) i j h0 h1
    rw [sub_add_cancel, sub_sub] at this
    push_cast at this
    linear_combination c * this
theorem down_q (n i j : Int) (c : ℂ) (h : c = 0 ∨ (0 ≤ i ∧ i ≤ n - 1)) : c * ((n : ℂ) * (q * C3 p q r s (n - 1) i j)) = c * ((n - j : ℂ) * C3 p q r s n (i + 1) j - (n - 1 - i : ℂ) * C3 p q r s (n - 2) i (j - 1)) := by
  rcases h with rfl | ⟨h0, h1⟩
  · ring
  · have := C3_q hd (n - 1) i j h0 h1
    rw [sub_add_cancel, sub_sub] at this
    push_cast at this
    linear_combination c * this
theorem down_s (n i j : Int) (c : ℂ) (h : c = 0 ∨ (0 ≤ i ∧ i ≤ n - 1)) : c * ((n : ℂ) * (s * C3 p q r s (n - 1) i j)) = c * ((n - j : ℂ) * C3 p q r s n i j + (i : ℂ) * C3 p q r s (n - 2) (i - 1) (j - 1)) := by
  rcases h with rfl | ⟨h0, h1⟩
  · ring
  · have := C3_s hd (n - 1) i j h0 h1
    rw [sub_add_cancel, sub_sub] at this
    push_cast at this
    linear_combination c * this
end

/-! ## The nine products -/

/-- The factors that depend on the first index, for multiplication with the elements of row `1 + a`. -/
noncomputable def A1 (a : Int) (n i : ℂ) : ℂ := if a = 1 then 2 * (n - i) else if a = 0 then n - 2 * i else -2 * i
noncomputable def A2 (a : Int) (n i : ℂ) : ℂ := if a = 1 then (n - i) * (n - i - 1) else if a = 0 then -i * (n - i) else i * (i - 1)
/-- The factors that depend on the second. -/
noncomputable def B0 (b : Int) (n j : ℂ) : ℂ := if b = 1 then (j + 1) * (j + 2) else if b = 0 then 2 * (j + 1) * (n - j + 1) else (n - j + 1) * (n - j + 2)
noncomputable def B1 (b : Int) (n j : ℂ) : ℂ := if b = 1 then j + 1 else if b = 0 then n - 2 * j else -(n - j + 1)
noncomputable def B2 (b : Int) : ℂ := if b = 1 then 1 else if b = 0 then -2 else 1

/-- The elements for angular momentum 1. -/
noncomputable def M1 (p q r s : ℂ) (a b : Int) : ℂ :=
  if a = 1 then (if b = 1 then p ^ 2 else if b = 0 then 2 * p * q else q ^ 2)
  else if a = 0 then (if b = 1 then p * r else if b = 0 then p * s + q * r else q * s)
  else (if b = 1 then r ^ 2 else if b = 0 then 2 * r * s else s ^ 2)

/-- The product with an element for angular momentum 1. -/
theorem product_rule {p q r s : ℂ} (hd : p * s - q * r = 1) (n i j : Int) (h0 : 0 ≤ i) (h1 : i ≤ n) (a b : Int) (ha : a = 1 ∨ a = 0 ∨ a = -1) (hb : b = 1 ∨ b = 0 ∨ b = -1) :
    (n * (n + 1) * (n + 2) : ℂ) * (M1 p q r s a b * C3 p q r s n i j) = n * B0 b n j * C3 p q r s (n + 2) (i + 1 + a) (j + 1 + b) + (n + 1) * (A1 a n i * B1 b n j) * C3 p q r s n (i + a) (j + b) +
      (n + 2) * (A2 a n i * B2 b) * C3 p q r s (n - 2) (i - 1 + a) (j - 1 + b) := by
  have hk : ((n : ℂ) - i) = 0 ∨ (0 ≤ i ∧ i ≤ n - 1) := by
    rcases eq_or_lt_of_le h1 with h | h
    · left
      rw [h]
      ring
    · exact .inr ⟨h0, by omega⟩
  have hi : (i : ℂ) = 0 ∨ (0 ≤ i - 1 ∧ i - 1 ≤ n - 1) := by
    rcases eq_or_lt_of_le h0 with h | h
    · left
      rw [← h]
      simp
    · exact .inr ⟨by omega, by omega⟩
  have x1 : i + 1 + -1 = i := by ring
  have x2 : i - 1 + 1 = i := by ring
  have x3 : i - 1 + -1 = i - 2 := by ring
  have x3' : i - 1 - 1 = i - 2 := by ring
  have x4 : i + -1 = i - 1 := by ring
  have x5 : i + 1 - 1 = i := by ring
  have y1 : j + 1 + -1 = j := by ring
  have y2 : j - 1 + 1 = j := by ring
  have y3 : j - 1 + -1 = j - 2 := by ring
  have y3' : j - 1 - 1 = j - 2 := by ring
  have y4 : j + -1 = j - 1 := by ring
  have y5 : j + 1 - 1 = j := by ring
  rcases ha with rfl | rfl | rfl <;> rcases hb with rfl | rfl | rfl
  · have e1 := C3_p hd n i j h0 h1
    have e2 := up_p hd n (i + 1) (j + 1) (by omega) (by omega)
    have e3 := down_p hd n i j (n - i) hk
    simp only [A1, A2, B0, B1, B2, M1, if_true, if_false, reduceIte, one_ne_zero, zero_ne_one, Int.reduceEq, Int.reduceNeg, add_zero, x1, x2, x3, x3', x4, x5, y1, y2, y3, y3', y4, y5] at e1 e2 e3 ⊢
    push_cast at e1 e2 e3 ⊢
    linear_combination n * (n + 2) * p * e1 + n * (j + 1) * e2 + (n + 2) * e3
  · have e1 := C3_q hd n i j h0 h1
    have e2 := up_p hd n (i + 1) j (by omega) (by omega)
    have e3 := down_p hd n i (j - 1) (n - i) hk
    simp only [A1, A2, B0, B1, B2, M1, if_true, if_false, reduceIte, one_ne_zero, zero_ne_one, Int.reduceEq, Int.reduceNeg, add_zero, x1, x2, x3, x3', x4, x5, y1, y2, y3, y3', y4, y5] at e1 e2 e3 ⊢
    push_cast at e1 e2 e3 ⊢
    linear_combination 2 * (n * (n + 2) * p * e1 + n * (n + 1 - j) * e2 - (n + 2) * e3)
  · have e1 := C3_q hd n i j h0 h1
    have e2 := up_q hd n (i + 1) j (by omega) (by omega)
    have e3 := down_q hd n i (j - 1) (n - i) hk
    simp only [A1, A2, B0, B1, B2, M1, if_true, if_false, reduceIte, one_ne_zero, zero_ne_one, Int.reduceEq, Int.reduceNeg, add_zero, x1, x2, x3, x3', x4, x5, y1, y2, y3, y3', y4, y5] at e1 e2 e3 ⊢
    push_cast at e1 e2 e3 ⊢
    linear_combination n * (n + 2) * q * e1 + n * (n + 1 - j) * e2 - (n + 2) * e3
  · have e1 := C3_r hd n i j h0 h1
    have e2 := up_p hd n i (j + 1) (by omega) (by omega)
    have e3 := down_p hd n (i - 1) j i hi
    simp only [A1, A2, B0, B1, B2, M1, if_true, if_false, reduceIte, one_ne_zero, zero_ne_one, Int.reduceEq, Int.reduceNeg, add_zero, x1, x2, x3, x3', x4, x5, y1, y2, y3, y3', y4, y5] at e1 e2 e3 ⊢
    push_cast at e1 e2 e3 ⊢
    linear_combination n * (n + 2) * p * e1 + n * (j + 1) * e2 - (n + 2) * e3
  · have e1 := C3_s hd n i j h0 h1
    have e2 := up_p hd n i j (by omega) (by omega)
    have e3 := down_p hd n (i - 1) (j - 1) i hi
    have f1 := C3_r hd n i j h0 h1
    have f2 := up_q hd n i (j + 1) (by omega) (by omega)
    have f3 := down_q hd n (i - 1) j i hi
    simp only [A1, A2, B0, B1, B2, M1, if_true, if_false, reduceIte, one_ne_zero, zero_ne_one, Int.reduceEq, Int.reduceNeg, add_zero, x1, x2, x3, x3', x4, x5, y1, y2, y3, y3', y4, y5] at e1 e2 e3 f1 f2 f3 ⊢
    push_cast at e1 e2 e3 f1 f2 f3 ⊢
    linear_combination n * (n + 2) * p * e1 + n * (n + 1 - j) * e2 + (n + 2) * e3 + n * (n + 2) * q * f1 + n * (j + 1) * f2 - (n + 2) * f3
  · have e1 := C3_s hd n i j h0 h1
    have e2 := up_q hd n i j (by omega) (by omega)
    have e3 := down_q hd n (i - 1) (j - 1) i hi
    simp only [A1, A2, B0, B1, B2, M1, if_true, if_false, reduceIte, one_ne_zero, zero_ne_one, Int.reduceEq, Int.reduceNeg, add_zero, x1, x2, x3, x3', x4, x5, y1, y2, y3, y3', y4, y5] at e1 e2 e3 ⊢
    push_cast at e1 e2 e3 ⊢
    linear_combination n * (n + 2) * q * e1 + n * (n + 1 - j) * e2 + (n + 2) * e3
  · have e1 := C3_r hd n i j h0 h1
    have e2 := up_r hd n i (j + 1) (by omega) (by omega)
    have e3 := down_r hd n (i - 1) j i hi
    simp only [A1, A2, B0, B1, B2, M1, if_true, if_false, reduceIte, one_ne_zero, zero_ne_one, Int.reduceEq, Int.reduceNeg, add_zero, x1, x2, x3, x3', x4, x5, y1, y2, y3, y3', y4, y5] at e1 e2 e3 ⊢
    push_cast at e1 e2 e3 ⊢
    linear_combination n * (n + 2) * r * e1 + n * (j + 1) * e2 - (n + 2) * e3
  · have e1 := C3_s hd n i j h0 h1
    have e2 := up_r hd n i j (by omega) (by omega)
    have e3 := down_r hd n (i - 1) (j - 1) i hi
    simp only [A1, A2, B0, B1, B2, M1, if_true, if_false, reduceIte, one_ne_zero, zero_ne_one, Int.reduceEq, Int.reduceNeg, add_zero, x1, x2, x3, x3', x4, x5, y1, y2, y3, y3', y4, y5] at e1 e2 e3 ⊢
    push_cast at e1 e2 e3 ⊢
    linear_combination 2 * (n * (n + 2) * r * e1 + n * (n + 1 - j) * e2 + (n + 2) * e3)
  · have e1 := C3_s hd n i j h0 h1
    have e2 := up_s hd n i j (by omega) (by omega)
    have e3 := down_s hd n (i - 1) (j - 1) i hi
    simp only [A1, A2, B0, B1, B2, M1, if_true, if_false, reduceIte, one_ne_zero, zero_ne_one, Int.reduceEq, Int.reduceNeg, add_zero, x1, x2, x3, x3', x4, x5, y1, y2, y3, y3', y4, y5] at e1 e2 e3 ⊢
    push_cast at e1 e2 e3 ⊢
    linear_combination n * (n + 2) * s * e1 + n * (n + 1 - j) * e2 + (n + 2) * e3

end Verif.Wigner
