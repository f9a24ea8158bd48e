import Verif.Model.PnAmplitude
import Verif.Spec.PnAmplitude

/-!
# Properties of the leading-order amplitudes (C40)
-/

namespace Verif.Props.PnAmplitude

open Verif.PnAmplitude Verif.Spec.PnAmplitude
open scoped Nat

/-- Modes with `m = 0` vanish. -/
theorem m_zero (ell : Int) (hl : 2 ≤ ell) (x q : ℝ) : amplitude ell 0 x q = 0 := by
  have h : (Complex.I * ((0 : Int) : ℂ)) ^ ell = 0 := by
    rw [Int.cast_zero, mul_zero]
    exact zero_zpow ell (by omega)
  unfold amplitude
  rw [if_neg (by omega)]
  unfold ampNonneg
  dsimp only
  split_ifs
  · unfold ampEven
    rw [h]
    simp
  · unfold ampOdd
    rw [h]
    simp
  · unfold ampEven
    rw [h]
    simp
  · unfold ampOdd
    rw [h]
    simp

theorem sign_sq (ell : Int) : ((-1 : ℂ) ^ ell) * (-1) ^ ell = 1 := by
  rw [← mul_zpow]
  simp

theorem conj_sign (ell : Int) : (starRingEnd ℂ) ((-1 : ℂ) ^ ell) = (-1) ^ ell := by
  rw [map_zpow₀]
  simp

/-- C40: the equatorial symmetry holds for all modes. -/
theorem symmetry (ell m : Int) (hl : 2 ≤ ell) (x q : ℝ) : amplitude ell m x q = (-1) ^ ell * (starRingEnd ℂ) (amplitude ell (-m) x q) := by
  rcases lt_trichotomy m 0 with h | h | h
  · have e1 : amplitude ell m x q = (-1) ^ ell * (starRingEnd ℂ) (ampNonneg ell (-m) x q) := if_pos h
    have e2 : amplitude ell (-m) x q = ampNonneg ell (-m) x q := if_neg (by omega)
    rw [e1, e2]
  · subst h
    rw [neg_zero, m_zero ell hl, map_zero, mul_zero]
  · have e1 : amplitude ell m x q = ampNonneg ell m x q := if_neg (by omega)
    have e2 : amplitude ell (-m) x q = (-1) ^ ell * (starRingEnd ℂ) (ampNonneg ell (- -m) x q) := if_pos (by omega)
    rw [e1, e2, neg_neg, map_mul, Complex.conj_conj, conj_sign, ← mul_assoc, sign_sq, one_mul]

/-- Equal masses: `sigma` vanishes at odd `ell`. -/
theorem sigma_equal (ell : Int) (ho : ell % 2 = 1) (X : ℝ) : sigma X X ell = 0 := by
  unfold sigma
  rw [Odd.neg_one_zpow (Int.odd_iff.mpr ho)]
  ring

/-- C40: for equal masses the modes with odd `m` vanish. -/
theorem equal_mass_odd_m (ell m : Int) (hm : m % 2 = 1) (x : ℝ) : amplitude ell m x 1 = 0 := by
  have key : ∀ k : Int, k % 2 = 1 → ampNonneg ell k x 1 = 0 := by
    intro k hk
    unfold ampNonneg
    rw [if_neg (lt_irrefl _)]
    have e : (1 : ℝ) / (1 + 1) = 1 / (1 + 1) := rfl
    dsimp only
    split_ifs with h
    · unfold ampEven
      rw [sigma_equal ell (by omega)]
      simp
    · unfold ampOdd
      rw [sigma_equal (ell + 1) (by omega)]
      simp
  unfold amplitude
  split_ifs
  · rw [key (-m) (by omega), map_zero, mul_zero]
  · exact key m hm

/-- The two masses may be named in either order: the mass ratio and its inverse give the same. -/
theorem mass_exchange (ell m : Int) (x q : ℝ) (hq : 0 < q) : amplitude ell m x (1 / q) = amplitude ell m x q := by
  have key : ∀ k, ampNonneg ell k x (1 / q) = ampNonneg ell k x q := by
    intro k
    unfold ampNonneg
    have e : (if 1 / q < 1 then 1 / (1 / q) else 1 / q) = if q < 1 then 1 / q else q := by
      rcases lt_trichotomy q 1 with h | h | h
      · rw [if_pos h, if_neg (not_lt.mpr (by rw [le_div_iff₀ hq]; linarith))]
      · subst h
        norm_num
      · rw [if_pos (by rw [div_lt_one hq]; exact h), if_neg (show ¬ q < 1 by linarith), one_div_one_div]
    rw [e]
  unfold amplitude
  rw [key, key]

/-! ## Comparison with the literature -/

theorem front_eq (m1 m2 x : ℝ) : front m1 m2 x = 8 * √(Real.pi / 5) * nu m1 m2 * x := by
  unfold front
  have : √(16 * Real.pi / 5) = 4 * √(Real.pi / 5) := by
    rw [show 16 * Real.pi / 5 = 4 ^ 2 * (Real.pi / 5) by ring, Real.sqrt_mul (by norm_num), Real.sqrt_sq (by norm_num)]
  rw [this]
  ring

/-- The function in terms of the masses. -/
theorem masses (ell m : Int) (hm : 0 ≤ m) (x m1 m2 : ℝ) (h2 : 0 < m2) (h12 : m2 ≤ m1) :
    amplitude ell m x (m1 / m2) = (front m1 m2 x : ℂ) * if (ell + m) % 2 = 0 then ampEven ell m x (m1 / (m1 + m2)) (m2 / (m1 + m2)) else ampOdd ell m x (m1 / (m1 + m2)) (m2 / (m1 + m2)) := by
  have h1 : 0 < m1 := by linarith
  have e0 : amplitude ell m x (m1 / m2) = ampNonneg ell m x (m1 / m2) := if_neg (by omega)
  have eq : (if m1 / m2 < 1 then 1 / (m1 / m2) else m1 / m2) = m1 / m2 := if_neg (by rw [div_lt_one h2]; linarith)
  have hs : m1 + m2 ≠ 0 := by positivity
  have e1 : m1 / m2 / (m1 / m2 + 1) = m1 / (m1 + m2) := by field_simp
  have e2 : 1 / (m1 / m2 + 1) = m2 / (m1 + m2) := by field_simp
  have e3 : m1 / m2 / (1 + m1 / m2) ^ 2 = nu m1 m2 := by
    unfold nu
    field_simp
    ring
  rw [e0, front_eq]
  unfold ampNonneg
  dsimp only
  rw [eq, e1, e2, e3]

theorem fac (n : Nat) (k : Int) (h : k = n) : factorial k = (n ! : ℝ) := by
  subst h
  exact if_neg (by omega)

theorem fac2 (n : Nat) (k : Int) (h : k = n) : factorial2 k = (n ‼ : ℝ) := by
  subst h
  exact if_neg (by omega)

theorem zp (a : ℝ) (n : Nat) (k : Int) (h : k = n) : a ^ k = a ^ n := by
  subst h
  exact zpow_natCast a n

theorem zpc (a : ℂ) (n : Nat) (k : Int) (h : k = n) : a ^ k = a ^ n := by
  subst h
  exact zpow_natCast a n

theorem sum_one (m1 m2 : ℝ) (h : m1 + m2 ≠ 0) : m1 / (m1 + m2) + m2 / (m1 + m2) = 1 := by
  field_simp

theorem delta_eq (m1 m2 : ℝ) : delta m1 m2 = m1 / (m1 + m2) - m2 / (m1 + m2) := by
  unfold delta
  ring

theorem nu_eq (m1 m2 : ℝ) : nu m1 m2 = m1 / (m1 + m2) * (m2 / (m1 + m2)) := by
  unfold nu
  rw [div_mul_div_comm, sq]

theorem sigma2 (m1 m2 : ℝ) (h : m1 + m2 ≠ 0) : sigma (m1 / (m1 + m2)) (m2 / (m1 + m2)) 2 = 1 := by
  unfold sigma
  rw [zp _ 1 (2 - 1) rfl, zp _ 2 2 rfl, zp _ 1 (2 - 1) rfl]
  linear_combination sum_one m1 m2 h

theorem sigma3 (m1 m2 : ℝ) (h : m1 + m2 ≠ 0) : sigma (m1 / (m1 + m2)) (m2 / (m1 + m2)) 3 = -delta m1 m2 := by
  unfold sigma
  rw [zp _ 2 (3 - 1) rfl, zp _ 3 3 rfl, zp _ 2 (3 - 1) rfl, delta_eq]
  linear_combination (m2 / (m1 + m2) - m1 / (m1 + m2)) * sum_one m1 m2 h

theorem sigma4 (m1 m2 : ℝ) (h : m1 + m2 ≠ 0) : sigma (m1 / (m1 + m2)) (m2 / (m1 + m2)) 4 = 1 - 3 * nu m1 m2 := by
  unfold sigma
  rw [zp _ 3 (4 - 1) rfl, zp _ 4 4 rfl, zp _ 3 (4 - 1) rfl, nu_eq]
  have e := sum_one m1 m2 h
  generalize m1 / (m1 + m2) = a at *
  generalize m2 / (m1 + m2) = b at *
  have hb : b = 1 - a := by linarith
  subst hb
  ring

theorem root (c a b : ℝ) (hc : 0 ≤ c) (h : a = c ^ 2 * b) : √a = c * √b := by
  rw [h, Real.sqrt_mul (by positivity), Real.sqrt_sq hc]

theorem half_pow (x : ℝ) : x ^ ((1 : ℝ) / 2) = √x := (Real.sqrt_eq_rpow x).symm

theorem even_nat (ell m : Int) (x X1 X2 : ℝ) (n k p r d s t L : Nat) (h1 : (ell - m + 2) / 2 = n) (h2 : ell + 1 = k) (h3 : (ell + m) / 2 = p) (h4 : (ell - m) / 2 = r) (h5 : 2 * ell - 1 = d)
    (h6 : ell + m = s) (h7 : ell - m = t) (h8 : ell = L) : ampEven ell m x X1 X2 =
    (((-1) ^ n / (2 ^ k * p ! * r ! * d ‼) * √((5 * (ell + 1) * (ell + 2) * s ! * t !) / (ell * (ell - 1) * (2 * ell + 1))) * sigma X1 X2 ell : ℝ) : ℂ) *
    (Complex.I * m) ^ L * ((x ^ ((ell : ℝ) / 2 - 1) : ℝ) : ℂ) := by
  unfold ampEven
  rw [zp (-1) n _ h1, zp 2 k _ h2, fac p _ h3, fac r _ h4, fac2 d _ h5, fac s _ h6, fac t _ h7, zpc (Complex.I * m) L _ h8]

theorem odd_nat (ell m : Int) (x X1 X2 : ℝ) (n k p r d s t L : Nat) (h1 : (ell - m - 1) / 2 = n) (h2 : ell - 1 = k) (h3 : (ell + m - 1) / 2 = p) (h4 : (ell - m - 1) / 2 = r) (h5 : 2 * ell + 1 = d)
    (h6 : ell + m = s) (h7 : ell - m = t) (h8 : ell = L) : ampOdd ell m x X1 X2 =
    (((-1) ^ n / (2 ^ k * p ! * r ! * d ‼) * √((5 * (ell + 2) * (2 * ell + 1) * s ! * t !) / (ell * (ell - 1) * (ell + 1))) * sigma X1 X2 (ell + 1) : ℝ) : ℂ) *
    Complex.I * (Complex.I * m) ^ L * ((x ^ (((ell : ℝ) - 1) / 2) : ℝ) : ℂ) := by
  unfold ampOdd
  rw [zp (-1) n _ h1, zp 2 k _ h2, fac p _ h3, fac r _ h4, fac2 d _ h5, fac s _ h6, fac t _ h7, zpc (Complex.I * m) L _ h8]

variable (m1 m2 x : ℝ) (h2 : 0 < m2) (h12 : m2 ≤ m1)
include h2 h12

/-- `H_22 = 1`. -/
theorem amplitude_22 : amplitude 2 2 x (m1 / m2) = front m1 m2 x := by
  rw [masses 2 2 (by norm_num) x m1 m2 h2 h12, if_pos (by norm_num)]
  rw [even_nat 2 2 x _ _ 1 3 2 0 3 4 0 2 rfl rfl rfl rfl rfl rfl rfl rfl, sigma2 m1 m2 (by linarith), root 12 _ 1 (by norm_num) (by norm_num [Nat.factorial]), Real.sqrt_one]
  norm_num [Nat.factorial, Nat.doubleFactorial, mul_pow]

/-- `H_21 = (i/3) Δ √x`. -/
theorem amplitude_21 : amplitude 2 1 x (m1 / m2) = front m1 m2 x * (Complex.I / 3 * delta m1 m2 * √x) := by
  rw [masses 2 1 (by norm_num) x m1 m2 h2 h12, if_neg (by norm_num)]
  rw [odd_nat 2 1 x _ _ 0 1 1 0 5 3 1 2 rfl rfl rfl rfl rfl rfl rfl rfl, show (2 + 1 : Int) = 3 from rfl, sigma3 m1 m2 (by linarith), root 10 _ 1 (by norm_num) (by norm_num [Nat.factorial]), Real.sqrt_one, show (((2 : Int) : ℝ) - 1) / 2 = 1 / 2 by norm_num, half_pow]
  norm_num [Nat.factorial, Nat.doubleFactorial, mul_pow]
  left
  left
  ring

/-- `H_33 = -(3/4) i √(15/14) Δ √x`. -/
theorem amplitude_33 : amplitude 3 3 x (m1 / m2) = front m1 m2 x * (-(3 / 4) * Complex.I * √(15 / 14) * delta m1 m2 * √x) := by
  rw [masses 3 3 (by norm_num) x m1 m2 h2 h12, if_pos (by norm_num)]
  rw [even_nat 3 3 x _ _ 1 4 3 0 5 6 0 3 rfl rfl rfl rfl rfl rfl rfl rfl, sigma3 m1 m2 (by linarith), root 40 _ (15 / 14) (by norm_num) (by norm_num [Nat.factorial]), show ((3 : Int) : ℝ) / 2 - 1 = 1 / 2 by norm_num, half_pow]
  generalize √(15 / 14) = r
  norm_num [Nat.factorial, Nat.doubleFactorial, mul_pow, Complex.I_pow_three]
  left
  left
  ring

/-- `H_32 = (1/3) √(5/7) (1 - 3ν) x`. -/
theorem amplitude_32 : amplitude 3 2 x (m1 / m2) = front m1 m2 x * (1 / 3 * √(5 / 7) * (1 - 3 * nu m1 m2) * x) := by
  rw [masses 3 2 (by norm_num) x m1 m2 h2 h12, if_neg (by norm_num)]
  rw [odd_nat 3 2 x _ _ 0 2 2 0 7 5 1 3 rfl rfl rfl rfl rfl rfl rfl rfl, show (3 + 1 : Int) = 4 from rfl, sigma4 m1 m2 (by linarith), root 35 _ (5 / 7) (by norm_num) (by norm_num [Nat.factorial]), show (((3 : Int) : ℝ) - 1) / 2 = 1 by norm_num, Real.rpow_one]
  generalize √(5 / 7) = r
  norm_num [Nat.factorial, Nat.doubleFactorial, mul_pow, Complex.I_pow_three]
  linear_combination (-(front m1 m2 x : ℂ) * r * (1 - 3 * nu m1 m2) * x / 3) * Complex.I_mul_I

/-- `H_31 = i Δ √x / (12 √14)`. -/
theorem amplitude_31 : amplitude 3 1 x (m1 / m2) = front m1 m2 x * (Complex.I * delta m1 m2 / (12 * √14) * √x) := by
  rw [masses 3 1 (by norm_num) x m1 m2 h2 h12, if_pos (by norm_num)]
  rw [even_nat 3 1 x _ _ 2 4 2 1 5 4 2 3 rfl rfl rfl rfl rfl rfl rfl rfl, sigma3 m1 m2 (by linarith), root 40 _ (1 / 14) (by norm_num) (by norm_num [Nat.factorial]), show ((3 : Int) : ℝ) / 2 - 1 = 1 / 2 by norm_num, half_pow, one_div, Real.sqrt_inv]
  generalize √14 = r
  norm_num [Nat.factorial, Nat.doubleFactorial, mul_pow, Complex.I_pow_three]
  left
  left
  ring

/-- `H_44 = -(8/9) √(5/7) (1 - 3ν) x`. -/
theorem amplitude_44 : amplitude 4 4 x (m1 / m2) = front m1 m2 x * (-(8 / 9) * √(5 / 7) * (1 - 3 * nu m1 m2) * x) := by
  rw [masses 4 4 (by norm_num) x m1 m2 h2 h12, if_pos (by norm_num)]
  rw [even_nat 4 4 x _ _ 1 5 4 0 7 8 0 4 rfl rfl rfl rfl rfl rfl rfl rfl, sigma4 m1 m2 (by linarith), root 280 _ (5 / 7) (by norm_num) (by norm_num [Nat.factorial]), show ((4 : Int) : ℝ) / 2 - 1 = 1 by norm_num, Real.rpow_one]
  generalize √(5 / 7) = r
  norm_num [Nat.factorial, Nat.doubleFactorial, mul_pow, Complex.I_pow_four]
  left
  left
  ring

end Verif.Props.PnAmplitude
