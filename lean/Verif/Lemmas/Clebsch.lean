import Verif.Model.Flux
import Mathlib.Tactic.LinearCombination
import Mathlib.Tactic.FieldSimp
import Mathlib.Tactic.Positivity

/-!
# Properties of the table of Clebsch-Gordan coefficients for coupling to angular momentum 1
-/

namespace Verif.Flux
open Real

theorem cg_zero {l m q lp : Int} (h : ¬ (-l ≤ m ∧ m ≤ l)) : cg l m q lp = 0 := by
  unfold cg
  simp only
  rw [if_neg]
  intro h'; exact h ⟨h'.2.2.1, h'.2.2.2.1⟩

theorem cg_zero' {l m q lp : Int} (h : ¬ (-lp ≤ m + q ∧ m + q ≤ lp)) : cg l m q lp = 0 := by
  unfold cg
  simp only
  rw [if_neg]
  intro h'; exact h ⟨h'.2.2.2.2.1, h'.2.2.2.2.2.1⟩

theorem cg_far {l m q lp : Int} (h : lp < l - 1 ∨ l + 1 < lp) : cg l m q lp = 0 := by
  unfold cg
  simp only
  split
  · rw [if_neg (by omega), if_neg (by omega), if_neg (by omega)]
  · rfl

theorem cg_zero_zero {m q : Int} : cg 0 m q 0 = 0 := by
  unfold cg
  simp only
  rw [if_neg (by omega)]

theorem cg_neg {l m q lp : Int} (h : l < 0 ∨ lp < 0) : cg l m q lp = 0 := by
  unfold cg
  simp only
  rw [if_neg (by omega)]

section
variable {L m : ℝ}

/-- The products of square roots of the factors. -/
theorem sqrt4 (a b c d : ℝ) (ha : 0 ≤ a) (hb : 0 ≤ b) (hc : 0 ≤ c) (_hd : 0 ≤ d) :
    √(a * b / (c * d)) = √a * √b / (√c * √d) := by
  rw [Real.sqrt_div (mul_nonneg ha hb), Real.sqrt_mul ha, Real.sqrt_mul hc]
end

/-- Coefficients from `L - 1` to `L`. -/
theorem cg_up (L m : Int) (hL : 1 ≤ L) (h1 : -(L - 1) ≤ m) (h2 : m ≤ L - 1) :
    cg (L - 1) m 1 L = √(L + m : ℝ) * √(L + m + 1 : ℝ) / (√(2 * L - 1 : ℝ) * (√2 * √(L : ℝ))) ∧
    cg (L - 1) m 0 L = √(L - m : ℝ) * √(L + m : ℝ) / (√(2 * L - 1 : ℝ) * √(L : ℝ)) ∧
    cg (L - 1) m (-1) L = √(L - m : ℝ) * √(L - m + 1 : ℝ) / (√(2 * L - 1 : ℝ) * (√2 * √(L : ℝ))) := by
  have hLr : (1 : ℝ) ≤ L := by exact_mod_cast hL
  have h1r : (-(L - 1) : ℝ) ≤ m := by exact_mod_cast h1
  have h2r : (m : ℝ) ≤ L - 1 := by exact_mod_cast h2
  rw [← Real.sqrt_mul (by norm_num : (0 : ℝ) ≤ 2)]
  refine ⟨?_, ?_, ?_⟩
  · rw [← sqrt4 _ _ _ _ (by linarith) (by linarith) (by linarith) (by linarith)]
    unfold cg
    simp only
    rw [if_pos (by omega), if_pos (by omega)]
    simp only [if_true]
    congr 1
    push_cast
    ring
  · rw [← sqrt4 _ _ _ _ (by linarith) (by linarith) (by linarith) (by linarith)]
    unfold cg
    simp only
    rw [if_pos (by omega), if_pos (by omega), if_neg (by omega)]
    simp only [if_true]
    congr 1
    push_cast
    ring
  · rw [← sqrt4 _ _ _ _ (by linarith) (by linarith) (by linarith) (by linarith)]
    unfold cg
    simp only
    rw [if_pos (by omega), if_pos (by omega), if_neg (by omega), if_neg (by omega)]
    simp only [if_true]
    congr 1
    push_cast
    ring

/-- Coefficients from `L` to `L`. -/
theorem cg_same (L m : Int) (hL : 1 ≤ L) (h1 : -L ≤ m) (h2 : m ≤ L) :
    cg L m 1 L = -(√(L + m + 1 : ℝ) * √(L - m : ℝ) / (√2 * √(L : ℝ) * √(L + 1 : ℝ))) ∧
    cg L m 0 L = m / (√(L : ℝ) * √(L + 1 : ℝ)) ∧
    cg L m (-1) L = √(L - m + 1 : ℝ) * √(L + m : ℝ) / (√2 * √(L : ℝ) * √(L + 1 : ℝ)) := by
  have hLr : (1 : ℝ) ≤ L := by exact_mod_cast hL
  have h1r : (-L : ℝ) ≤ m := by exact_mod_cast h1
  have h2r : (m : ℝ) ≤ L := by exact_mod_cast h2
  rw [← Real.sqrt_mul (by norm_num : (0 : ℝ) ≤ 2)]
  refine ⟨?_, ?_, ?_⟩
  · rw [← sqrt4 _ _ _ _ (by linarith) (by linarith) (by linarith) (by linarith)]
    by_cases hm : m = L
    · subst hm
      rw [cg_zero' (by omega)]
      simp
    unfold cg
    simp only
    rw [if_pos (by omega), if_neg (by omega), if_pos trivial]
    simp only [if_true]
    congr 2
    push_cast
    ring
  · rw [← Real.sqrt_mul (by linarith)]
    unfold cg
    simp only
    rw [if_pos (by omega), if_neg (by omega), if_pos trivial, if_neg (by omega), if_pos trivial, add_zero]
  · rw [← sqrt4 _ _ _ _ (by linarith) (by linarith) (by linarith) (by linarith)]
    by_cases hm : m = -L
    · subst hm
      rw [cg_zero' (by omega)]
      simp
    unfold cg
    simp only
    rw [if_pos (by omega), if_neg (by omega), if_pos trivial, if_neg (by omega), if_neg (by omega)]
    simp only [if_true]
    congr 1
    push_cast
    ring

/-- Coefficients from `L + 1` to `L`. -/
theorem cg_down (L m : Int) (hL : 0 ≤ L) (h1 : -(L + 1) ≤ m) (h2 : m ≤ L + 1) :
    cg (L + 1) m 1 L = √(L - m : ℝ) * √(L - m + 1 : ℝ) / (√2 * √(L + 1 : ℝ) * √(2 * L + 3 : ℝ)) ∧
    cg (L + 1) m 0 L = -(√(L - m + 1 : ℝ) * √(L + m + 1 : ℝ) / (√(L + 1 : ℝ) * √(2 * L + 3 : ℝ))) ∧
    cg (L + 1) m (-1) L = √(L + m + 1 : ℝ) * √(L + m : ℝ) / (√2 * √(L + 1 : ℝ) * √(2 * L + 3 : ℝ)) := by
  have hLr : (0 : ℝ) ≤ L := by exact_mod_cast hL
  have h1r : (-(L + 1) : ℝ) ≤ m := by exact_mod_cast h1
  have h2r : (m : ℝ) ≤ L + 1 := by exact_mod_cast h2
  rw [← Real.sqrt_mul (by norm_num : (0 : ℝ) ≤ 2)]
  refine ⟨?_, ?_, ?_⟩
  · by_cases hm : m = L
    · subst hm
      rw [cg_zero' (by omega)]
      simp
    by_cases hm' : m = L + 1
    · subst hm'
      rw [cg_zero' (by omega)]
      simp
    have : (m : ℝ) ≤ L - 1 := by exact_mod_cast (show m ≤ L - 1 by omega)
    rw [← sqrt4 _ _ _ _ (by linarith) (by linarith) (by linarith) (by linarith)]
    unfold cg
    simp only
    rw [if_pos (by omega), if_neg (by omega), if_neg (by omega), if_pos (by omega)]
    simp only [if_true]
    congr 1
    push_cast
    ring
  · by_cases hm : m = L + 1
    · subst hm
      rw [cg_zero' (by omega)]
      simp
    by_cases hm' : m = -(L + 1)
    · subst hm'
      rw [cg_zero' (by omega)]
      simp
    rw [← sqrt4 _ _ _ _ (by linarith) (by linarith) (by linarith) (by linarith)]
    unfold cg
    simp only
    rw [if_pos (by omega), if_neg (by omega), if_neg (by omega), if_pos (by omega), if_neg (by omega), if_pos trivial]
    congr 2
    push_cast
    ring
  · by_cases hm : m = -L
    · subst hm
      rw [cg_zero' (by omega)]
      simp
    by_cases hm' : m = -(L + 1)
    · subst hm'
      rw [cg_zero' (by omega)]
      simp
    have : (-(L - 1) : ℝ) ≤ m := by exact_mod_cast (show -(L - 1) ≤ m by omega)
    rw [← sqrt4 _ _ _ _ (by linarith) (by linarith) (by linarith) (by linarith)]
    unfold cg
    simp only
    rw [if_pos (by omega), if_neg (by omega), if_neg (by omega), if_pos (by omega), if_neg (by omega), if_neg (by omega)]
    simp only [if_true]
    congr 1
    push_cast
    ring

/-- The sum over the three components of a product of two coefficients with the same result. -/
noncomputable def dot3 (l1 l2 m lp : Int) : ℝ :=
  cg l1 m 1 lp * cg l2 m 1 lp + cg l1 m 0 lp * cg l2 m 0 lp + cg l1 m (-1) lp * cg l2 m (-1) lp

theorem dot3_comm (l1 l2 m lp : Int) : dot3 l1 l2 m lp = dot3 l2 l1 m lp := by unfold dot3; ring

theorem dot3_up_same (L m : Int) : dot3 (L - 1) L m L = 0 := by
  by_cases hm : -(L - 1) ≤ m ∧ m ≤ L - 1
  · have hL : 1 ≤ L := by omega
    obtain ⟨u1, u0, um⟩ := cg_up L m hL hm.1 hm.2
    obtain ⟨s1, s0, sm⟩ := cg_same L m hL (by omega) (by omega)
    unfold dot3
    rw [u1, u0, um, s1, s0, sm]
    have hLr : (1 : ℝ) ≤ L := by exact_mod_cast hL
    have h1r : (-(L - 1) : ℝ) ≤ m := by exact_mod_cast hm.1
    have h2r : (m : ℝ) ≤ L - 1 := by exact_mod_cast hm.2
    have e1 : √(L + m + 1 : ℝ) * √(L + m + 1 : ℝ) = L + m + 1 := Real.mul_self_sqrt (by linarith)
    have e2 : √(L - m + 1 : ℝ) * √(L - m + 1 : ℝ) = L - m + 1 := Real.mul_self_sqrt (by linarith)
    have e3 : √(2 : ℝ) * √2 = 2 := Real.mul_self_sqrt (by norm_num)
    have p1 : 0 < √(2 * L - 1 : ℝ) := Real.sqrt_pos.mpr (by linarith)
    have p2 : 0 < √(L : ℝ) := Real.sqrt_pos.mpr (by linarith)
    have p3 : 0 < √(L + 1 : ℝ) := Real.sqrt_pos.mpr (by linarith)
    have p4 : 0 < √(2 : ℝ) := Real.sqrt_pos.mpr (by norm_num)
    generalize √(L + m + 1 : ℝ) = p at *
    generalize √(L - m + 1 : ℝ) = r at *
    generalize √(L + m : ℝ) = a at *
    generalize √(L - m : ℝ) = b at *
    generalize √(2 * L - 1 : ℝ) = z at *
    generalize √(L : ℝ) = x at *
    generalize √(L + 1 : ℝ) = y at *
    generalize √(2 : ℝ) = t at *
    field_simp
    linear_combination (-a * b) * e1 + a * b * e2 + a * b * m * e3
  · unfold dot3
    rw [cg_zero hm, cg_zero hm, cg_zero hm]; ring

theorem dot3_up_down (L m : Int) : dot3 (L - 1) (L + 1) m L = 0 := by
  by_cases hm : -(L - 1) ≤ m ∧ m ≤ L - 1
  · have hL : 1 ≤ L := by omega
    obtain ⟨u1, u0, um⟩ := cg_up L m hL hm.1 hm.2
    obtain ⟨s1, s0, sm⟩ := cg_down L m (by omega) (by omega) (by omega)
    unfold dot3
    rw [u1, u0, um, s1, s0, sm]
    have hLr : (1 : ℝ) ≤ L := by exact_mod_cast hL
    have e3 : √(2 : ℝ) * √2 = 2 := Real.mul_self_sqrt (by norm_num)
    have p1 : 0 < √(2 * L - 1 : ℝ) := Real.sqrt_pos.mpr (by linarith)
    have p2 : 0 < √(L : ℝ) := Real.sqrt_pos.mpr (by linarith)
    have p3 : 0 < √(L + 1 : ℝ) := Real.sqrt_pos.mpr (by linarith)
    have p4 : 0 < √(2 : ℝ) := Real.sqrt_pos.mpr (by norm_num)
    have p5 : 0 < √(2 * L + 3 : ℝ) := Real.sqrt_pos.mpr (by linarith)
    generalize √(L + m + 1 : ℝ) = p at *
    generalize √(L - m + 1 : ℝ) = r at *
    generalize √(L + m : ℝ) = a at *
    generalize √(L - m : ℝ) = b at *
    generalize √(2 * L - 1 : ℝ) = z at *
    generalize √(L : ℝ) = x at *
    generalize √(L + 1 : ℝ) = y at *
    generalize √(2 * L + 3 : ℝ) = w at *
    generalize √(2 : ℝ) = t at *
    field_simp
    linear_combination (-a * b * p * r) * e3
  · unfold dot3
    rw [cg_zero hm, cg_zero hm, cg_zero hm]; ring

theorem dot3_same_down (L m : Int) (hL : 0 ≤ L) : dot3 L (L + 1) m L = 0 := by
  by_cases hm : -L ≤ m ∧ m ≤ L
  · by_cases h0 : L = 0
    · subst h0
      unfold dot3
      rw [cg_zero_zero, cg_zero_zero, cg_zero_zero]; ring
    obtain ⟨u1, u0, um⟩ := cg_same L m (by omega) hm.1 hm.2
    obtain ⟨s1, s0, sm⟩ := cg_down L m hL (by omega) (by omega)
    unfold dot3
    rw [u1, u0, um, s1, s0, sm]
    have hLr : (1 : ℝ) ≤ L := by exact_mod_cast (show 1 ≤ L by omega)
    have h1r : (-L : ℝ) ≤ m := by exact_mod_cast hm.1
    have h2r : (m : ℝ) ≤ L := by exact_mod_cast hm.2
    have e1 : √(L + m : ℝ) * √(L + m : ℝ) = L + m := Real.mul_self_sqrt (by linarith)
    have e2 : √(L - m : ℝ) * √(L - m : ℝ) = L - m := Real.mul_self_sqrt (by linarith)
    have e3 : √(2 : ℝ) * √2 = 2 := Real.mul_self_sqrt (by norm_num)
    have p2 : 0 < √(L : ℝ) := Real.sqrt_pos.mpr (by linarith)
    have p3 : 0 < √(L + 1 : ℝ) := Real.sqrt_pos.mpr (by linarith)
    have p4 : 0 < √(2 : ℝ) := Real.sqrt_pos.mpr (by norm_num)
    have p5 : 0 < √(2 * L + 3 : ℝ) := Real.sqrt_pos.mpr (by linarith)
    generalize √(L + m + 1 : ℝ) = p at *
    generalize √(L - m + 1 : ℝ) = r at *
    generalize √(L + m : ℝ) = a at *
    generalize √(L - m : ℝ) = b at *
    generalize √(L : ℝ) = x at *
    generalize √(L + 1 : ℝ) = y at *
    generalize √(2 * L + 3 : ℝ) = w at *
    generalize √(2 : ℝ) = t at *
    field_simp
    linear_combination (p * r) * e1 - (p * r) * e2 - (p * r * m) * e3
  · unfold dot3
    rw [cg_zero hm, cg_zero hm, cg_zero hm]; ring

theorem dot3_up_up (L m : Int) (h1 : -(L - 1) ≤ m) (h2 : m ≤ L - 1) : dot3 (L - 1) (L - 1) m L = (2 * L + 1) / (2 * (L - 1 : Int) + 1) := by
  have hL : 1 ≤ L := by omega
  obtain ⟨u1, u0, um⟩ := cg_up L m hL h1 h2
  unfold dot3
  rw [u1, u0, um]
  have hLr : (1 : ℝ) ≤ L := by exact_mod_cast hL
  have h1r : (-(L - 1) : ℝ) ≤ m := by exact_mod_cast h1
  have h2r : (m : ℝ) ≤ L - 1 := by exact_mod_cast h2
  simp only [← sq, div_pow, mul_pow]
  rw [Real.sq_sqrt (show (0 : ℝ) ≤ L + m by linarith), Real.sq_sqrt (show (0 : ℝ) ≤ L + m + 1 by linarith),
    Real.sq_sqrt (show (0 : ℝ) ≤ L - m by linarith), Real.sq_sqrt (show (0 : ℝ) ≤ L - m + 1 by linarith),
    Real.sq_sqrt (show (0 : ℝ) ≤ 2 * L - 1 by linarith), Real.sq_sqrt (show (0 : ℝ) ≤ 2 by norm_num),
    Real.sq_sqrt (show (0 : ℝ) ≤ L by linarith)]
  have d1 : (2 * L - 1 : ℝ) ≠ 0 := by linarith
  have d2 : (L : ℝ) ≠ 0 := by linarith
  rw [show (2 * ((L - 1 : Int) : ℝ) + 1) = 2 * L - 1 by push_cast; ring]
  field_simp
  ring

theorem dot3_same_same (L m : Int) (hL : 1 ≤ L) (h1 : -L ≤ m) (h2 : m ≤ L) : dot3 L L m L = 1 := by
  obtain ⟨u1, u0, um⟩ := cg_same L m hL h1 h2
  unfold dot3
  rw [u1, u0, um]
  have hLr : (1 : ℝ) ≤ L := by exact_mod_cast hL
  have h1r : (-L : ℝ) ≤ m := by exact_mod_cast h1
  have h2r : (m : ℝ) ≤ L := by exact_mod_cast h2
  simp only [← sq, neg_sq, div_pow, mul_pow]
  rw [Real.sq_sqrt (show (0 : ℝ) ≤ L + m by linarith), Real.sq_sqrt (show (0 : ℝ) ≤ L + m + 1 by linarith),
    Real.sq_sqrt (show (0 : ℝ) ≤ L - m by linarith), Real.sq_sqrt (show (0 : ℝ) ≤ L - m + 1 by linarith),
    Real.sq_sqrt (show (0 : ℝ) ≤ L + 1 by linarith), Real.sq_sqrt (show (0 : ℝ) ≤ 2 by norm_num),
    Real.sq_sqrt (show (0 : ℝ) ≤ L by linarith)]
  have d1 : (L + 1 : ℝ) ≠ 0 := by linarith
  have d2 : (L : ℝ) ≠ 0 := by linarith
  field_simp
  ring

theorem dot3_down_down (L m : Int) (hL : 0 ≤ L) (h1 : -(L + 1) ≤ m) (h2 : m ≤ L + 1) :
    dot3 (L + 1) (L + 1) m L = (2 * L + 1) / (2 * (L + 1 : Int) + 1) := by
  obtain ⟨u1, u0, um⟩ := cg_down L m hL h1 h2
  unfold dot3
  rw [u1, u0, um]
  have hLr : (0 : ℝ) ≤ L := by exact_mod_cast hL
  have h1r : (-(L + 1) : ℝ) ≤ m := by exact_mod_cast h1
  have h2r : (m : ℝ) ≤ L + 1 := by exact_mod_cast h2
  have hr : √(L - m : ℝ) * √(L - m + 1 : ℝ) * (√(L - m : ℝ) * √(L - m + 1 : ℝ)) = (L - m) * (L - m + 1) := by
    by_cases h : m = L + 1
    · subst h; simp
    · have : (m : ℝ) ≤ L := by exact_mod_cast (show m ≤ L by omega)
      have e1 : √(L - m : ℝ) * √(L - m : ℝ) = L - m := Real.mul_self_sqrt (by linarith)
      have e2 : √(L - m + 1 : ℝ) * √(L - m + 1 : ℝ) = L - m + 1 := Real.mul_self_sqrt (by linarith)
      calc _ = (√(L - m : ℝ) * √(L - m : ℝ)) * (√(L - m + 1 : ℝ) * √(L - m + 1 : ℝ)) := by ring
        _ = _ := by rw [e1, e2]
  have hl : √(L + m + 1 : ℝ) * √(L + m : ℝ) * (√(L + m + 1 : ℝ) * √(L + m : ℝ)) = (L + m + 1) * (L + m) := by
    by_cases h : m = -(L + 1)
    · subst h; simp
    · have : (-L : ℝ) ≤ m := by exact_mod_cast (show -L ≤ m by omega)
      have e1 : √(L + m : ℝ) * √(L + m : ℝ) = L + m := Real.mul_self_sqrt (by linarith)
      have e2 : √(L + m + 1 : ℝ) * √(L + m + 1 : ℝ) = L + m + 1 := Real.mul_self_sqrt (by linarith)
      calc _ = (√(L + m : ℝ) * √(L + m : ℝ)) * (√(L + m + 1 : ℝ) * √(L + m + 1 : ℝ)) := by ring
        _ = _ := by rw [e1, e2]; ring
  have hc : √(L - m + 1 : ℝ) * √(L + m + 1 : ℝ) * (√(L - m + 1 : ℝ) * √(L + m + 1 : ℝ)) = (L - m + 1) * (L + m + 1) := by
    have e1 : √(L - m + 1 : ℝ) * √(L - m + 1 : ℝ) = L - m + 1 := Real.mul_self_sqrt (by linarith)
    have e2 : √(L + m + 1 : ℝ) * √(L + m + 1 : ℝ) = L + m + 1 := Real.mul_self_sqrt (by linarith)
    calc _ = (√(L - m + 1 : ℝ) * √(L - m + 1 : ℝ)) * (√(L + m + 1 : ℝ) * √(L + m + 1 : ℝ)) := by ring
      _ = _ := by rw [e1, e2]
  simp only [neg_mul_neg, div_mul_div_comm]
  rw [hr, hl, hc]
  simp only [← sq, mul_pow]
  rw [Real.sq_sqrt (show (0 : ℝ) ≤ L + 1 by linarith), Real.sq_sqrt (show (0 : ℝ) ≤ 2 by norm_num),
    Real.sq_sqrt (show (0 : ℝ) ≤ 2 * L + 3 by linarith)]
  have d1 : (L + 1 : ℝ) ≠ 0 := by linarith
  have d2 : (2 * L + 3 : ℝ) ≠ 0 := by linarith
  have d3 : (2 * ((L + 1 : Int) : ℝ) + 1) ≠ 0 := by push_cast; linarith
  field_simp
  push_cast
  ring

/-- Orthogonality: coefficients to the same angular momentum `lp` from different ones. -/
theorem dot3_orth (l1 l2 m lp : Int) (hlp : 0 ≤ lp) (h : l1 ≠ l2) : dot3 l1 l2 m lp = 0 := by
  by_cases h1 : lp < l1 - 1 ∨ l1 + 1 < lp
  · unfold dot3; rw [cg_far h1, cg_far h1, cg_far h1]; ring
  by_cases h2 : lp < l2 - 1 ∨ l2 + 1 < lp
  · unfold dot3; rw [cg_far h2, cg_far h2, cg_far h2]; ring
  have c1 : l1 = lp - 1 ∨ l1 = lp ∨ l1 = lp + 1 := by omega
  have c2 : l2 = lp - 1 ∨ l2 = lp ∨ l2 = lp + 1 := by omega
  rcases c1 with rfl | rfl | rfl <;> rcases c2 with rfl | rfl | rfl <;> first
    | exact absurd rfl h
    | exact dot3_up_same _ m
    | exact dot3_up_down _ m
    | exact dot3_same_down _ m hlp
    | exact (dot3_comm _ _ _ _).trans (dot3_up_same _ m)
    | exact (dot3_comm _ _ _ _).trans (dot3_up_down _ m)
    | exact (dot3_comm _ _ _ _).trans (dot3_same_down _ m hlp)

/-- Whether `l`, 1 and `lp` satisfy the triangle inequality. -/
def Tri (l lp : Int) : Prop := 0 ≤ l ∧ 0 ≤ lp ∧ l - 1 ≤ lp ∧ lp ≤ l + 1 ∧ 1 ≤ l + lp

theorem dot3_norm (l m lp : Int) (h : Tri l lp) (h1 : -l ≤ m) (h2 : m ≤ l) : dot3 l l m lp = (2 * lp + 1) / (2 * l + 1) := by
  obtain ⟨a, b, c, d, e⟩ := h
  have : lp = l + 1 ∨ lp = l ∨ lp = l - 1 := by omega
  rcases this with rfl | rfl | rfl
  · have := dot3_up_up (l + 1) m (by omega) (by omega)
    rw [show l + 1 - 1 = l by ring] at this
    rw [this]
  · rw [dot3_same_same _ _ (by omega) h1 h2]
    have : (2 * lp + 1 : ℝ) ≠ 0 := by
      have : (0 : ℝ) ≤ lp := by exact_mod_cast a
      linarith
    rw [div_self this]
  · have := dot3_down_down (l - 1) m (by omega) (by omega) (by omega)
    rw [show l - 1 + 1 = l by ring] at this
    rw [this]

theorem dot3_not_tri (l m lp : Int) (h : ¬ Tri l lp) : dot3 l l m lp = 0 := by
  have : ∀ q, cg l m q lp = 0 := by
    intro q
    unfold cg
    simp only
    split
    · rw [if_neg, if_neg, if_neg] <;> (unfold Tri at h; omega)
    · rfl
  unfold dot3
  simp [this]

/-- The squares of the three coefficients with zero component add up to one. -/
theorem cg0_sq_sum (l s : Int) (h1 : -l ≤ s) (h2 : s ≤ l) :
    cg l s 0 (l - 1) ^ 2 + cg l s 0 l ^ 2 + cg l s 0 (l + 1) ^ 2 = 1 := by
  have hl : 0 ≤ l := by omega
  have hlr : (0 : ℝ) ≤ l := by exact_mod_cast hl
  have h1r : (-l : ℝ) ≤ s := by exact_mod_cast h1
  have h2r : (s : ℝ) ≤ l := by exact_mod_cast h2
  have u := (cg_up (l + 1) s (by omega) (by omega) (by omega)).2.1
  rw [show l + 1 - 1 = l by ring] at u
  by_cases h0 : l = 0
  · subst h0
    have : s = 0 := by omega
    subst this
    rw [cg_neg (by omega), cg_zero_zero, u]
    norm_num
  have hl1 : (1 : ℝ) ≤ l := by exact_mod_cast (show 1 ≤ l by omega)
  have sm := (cg_same l s (by omega) h1 h2).2.1
  have d := (cg_down (l - 1) s (by omega) (by omega) (by omega)).2.1
  rw [show l - 1 + 1 = l by ring] at d
  rw [d, sm, u]
  push_cast
  rw [neg_sq, div_pow, div_pow, div_pow, mul_pow, mul_pow, mul_pow, mul_pow, mul_pow]
  rw [Real.sq_sqrt (by linarith), Real.sq_sqrt (by linarith), Real.sq_sqrt (by linarith), Real.sq_sqrt (by linarith), Real.sq_sqrt (by linarith),
    Real.sq_sqrt (by linarith), Real.sq_sqrt (by linarith), Real.sq_sqrt (by linarith), Real.sq_sqrt (by linarith)]
  have d1 : (l : ℝ) ≠ 0 := by linarith
  have d2 : (l + 1 : ℝ) ≠ 0 := by linarith
  have d3 : (2 * l + 1 : ℝ) ≠ 0 := by linarith
  rw [show (2 * (l - 1) + 3 : ℝ) = 2 * l + 1 by ring, show (2 * (l + 1) - 1 : ℝ) = 2 * l + 1 by ring, show (l - 1 + 1 : ℝ) = l by ring]
  field_simp
  ring

end Verif.Flux
