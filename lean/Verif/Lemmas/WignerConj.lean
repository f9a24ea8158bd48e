import Verif.Lemmas.Wigner
import Verif.Model.GridMultiply
import Verif.Model.Charges
import Verif.Spec.GridMultiply

/-!
# The complex conjugates of Wigner's matrices and of spin-weighted harmonics
-/

namespace Verif.Wigner
open ComplexConjugate Finset

theorem coef_reverse (n : ℕ) (p q r s : ℂ) (i j : ℕ) (hi : i ≤ n) (hj : j ≤ n) :
    coef n s (-r) (-q) p i j = (-1) ^ (i + j) * coef n p q r s (n - i) (n - j) := by
  refine indep n (fun j => coef n s (-r) (-q) p i j) (fun j => (-1) ^ (i + j) * coef n p q r s (n - i) (n - j)) ?_ j hj
  intro x y
  rw [coef_gen n s (-r) (-q) p i hi x y]
  rw [← Finset.sum_range_reflect]
  have h := coef_gen n p q r s (n - i) (by omega) y (-x)
  rw [show n - (n - i) = i by omega] at h
  have e : (s * x + -r * y) ^ i * (-q * x + p * y) ^ (n - i) = (-1) ^ i * ((p * y + q * -x) ^ (n - i) * (r * y + s * -x) ^ i) := by
    have : (r * y + s * -x) ^ i = (-1) ^ i * (s * x + -r * y) ^ i := by
      rw [← mul_pow]
      ring
    have h1 : ((-1 : ℂ) ^ i) * (-1) ^ i = 1 := by rw [← mul_pow]; simp
    rw [this]
    linear_combination -(s * x + -r * y) ^ i * (p * y + q * -x) ^ (n - i) * h1
  rw [e, ← h, Finset.mul_sum]
  refine Finset.sum_congr rfl fun k hk => ?_
  rw [Finset.mem_range] at hk
  have e1 : n + 1 - 1 - k = n - k := by omega
  have e2 : n - (n - k) = k := by omega
  rw [e1, e2, pow_add, neg_pow x (n - k)]
  ring

theorem nu_symm (n j : ℕ) (hj : j ≤ n) : nu n (n - j) = nu n j := by
  unfold nu
  rw [show n - (n - j) = j by omega, mul_comm]

theorem D_conj (n : ℕ) (R : Quaternion ℝ) (i j : ℕ) (hi : i ≤ n) (hj : j ≤ n) : conj (D n R i j) = (-1) ^ (i + j) * D n R (n - i) (n - j) := by
  unfold D
  rw [map_mul, Complex.conj_ofReal, conj_coef, nu_symm n i hi, nu_symm n j hj]
  simp only [map_neg, Complex.conj_conj]
  have := coef_reverse n (Ra R) (-conj (Rb R)) (Rb R) (conj (Ra R)) i j hi hj
  rw [neg_neg] at this
  rw [this]
  ring

theorem Dlm_conj (ell : Int) (R : Quaternion ℝ) (mp m : Int) (h1 : |mp| ≤ ell) (h2 : |m| ≤ ell) : conj (Dlm ell R mp m) = (-1) ^ (mp + m).natAbs * Dlm ell R (-mp) (-m) := by
  rw [abs_le] at h1 h2
  unfold Dlm
  rw [D_conj _ _ _ _ (by omega) (by omega)]
  rw [show (2 * ell).toNat - (ell + mp).toNat = (ell + -mp).toNat by omega, show (2 * ell).toNat - (ell + m).toNat = (ell + -m).toNat by omega]
  congr 1
  rcases Nat.even_or_odd ((ell + mp).toNat + (ell + m).toNat) with h | h
  · have h' : Even (mp + m).natAbs := by
      rw [Nat.even_iff] at h ⊢
      omega
    rw [h.neg_one_pow, h'.neg_one_pow]
  · have h' : Odd (mp + m).natAbs := by
      rw [Nat.odd_iff] at h ⊢
      omega
    rw [h.neg_one_pow, h'.neg_one_pow]

end Verif.Wigner

namespace Verif.GridMultiply
open ComplexConjugate

/-- The conjugate of a harmonic. -/
theorem Y_conj (s ell m : Int) (R : Quaternion ℝ) (hm : |m| ≤ ell) : conj (Y s ell m R) = (-1) ^ (s + m).natAbs * Y (-s) ell (-m) R := by
  unfold Y
  rw [abs_neg]
  by_cases h : |s| ≤ ell
  · rw [if_pos h, if_pos h, map_mul, map_mul, Complex.conj_ofReal, Wigner.Dlm_conj ell R m (-s) hm (by rwa [abs_neg])]
    simp only [map_pow, map_neg, map_one, Int.natAbs_neg]
    have : ((-1 : ℂ)) ^ (m + -s).natAbs = (-1) ^ (s + m).natAbs := by
      rcases Nat.even_or_odd (m + -s).natAbs with h | h
      · have h' : Even (s + m).natAbs := by
          rw [Nat.even_iff] at h ⊢
          omega
        rw [h.neg_one_pow, h'.neg_one_pow]
      · have h' : Odd (s + m).natAbs := by
          rw [Nat.odd_iff] at h ⊢
          omega
        rw [h.neg_one_pow, h'.neg_one_pow]
    rw [this]
    ring
  · rw [if_neg h, if_neg h]
    simp

/-- The conjugate of a field. -/
theorem expansion_conj (s L : Int) (f : Int → Int → ℂ) (R : Quaternion ℝ) : conj (Spec.expansion s L f R) = Spec.expansion (-s) L (Charges.bar s f) R := by
  unfold Spec.expansion
  rw [map_sum]
  refine Finset.sum_congr rfl fun ell h1 => ?_
  rw [map_sum]
  refine Finset.sum_bij (fun m _ => -m) ?_ ?_ ?_ ?_
  · intro m hm
    rw [Finset.mem_Icc] at hm ⊢
    omega
  · intro a _ b _ h
    omega
  · intro b hb
    rw [Finset.mem_Icc] at hb
    exact ⟨-b, Finset.mem_Icc.mpr (by omega), by omega⟩
  · intro m hm
    rw [Finset.mem_Icc] at hm
    rw [map_mul, Y_conj s ell m R (abs_le.mpr hm)]
    unfold Charges.bar
    rw [neg_neg]
    have : ((-1 : ℂ)) ^ (s + -m).natAbs = (-1) ^ (s + m).natAbs := by
      rcases Nat.even_or_odd (s + -m).natAbs with h | h
      · have h' : Even (s + m).natAbs := by
          rw [Nat.even_iff] at h ⊢
          omega
        rw [h.neg_one_pow, h'.neg_one_pow]
      · have h' : Odd (s + m).natAbs := by
          rw [Nat.odd_iff] at h ⊢
          omega
        rw [h.neg_one_pow, h'.neg_one_pow]
    rw [this]
    ring

end Verif.GridMultiply
