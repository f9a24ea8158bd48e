import Verif.Lemmas.ClebschSeries
import Verif.Lemmas.GridMultiply

/-!
# Products of matrix elements and of harmonics with those of angular momentum 1
-/

namespace Verif.Wigner
open Real Verif.Flux ComplexConjugate Verif.GridMultiply

variable {R : Quaternion ℝ}

/-- The matrix elements without the normalisation. -/
noncomputable def CR (R : Quaternion ℝ) (n i j : Int) : ℂ := C3 (Ra R) (-conj (Rb R)) (Rb R) (conj (Ra R)) n i j

theorem Dlm_CR {l m σ : Int} (h1 : -l ≤ m) (h2 : m ≤ l) (h3 : -l ≤ σ) : Dlm l R m σ = ((nuZ l σ : ℝ) : ℂ) / (nuZ l m : ℝ) * CR R (2 * l) (l + m) (l + σ) := by
  unfold Dlm D CR C3 nuZ
  rw [if_pos ⟨by omega, by omega, by omega⟩]
  push_cast
  rfl

theorem Dlm_one {a b : Int} (ha : a = 1 ∨ a = 0 ∨ a = -1) (hb : b = 1 ∨ b = 0 ∨ b = -1) :
    Dlm 1 R a b = ((nuZ 1 b : ℝ) : ℂ) / (nuZ 1 a : ℝ) * M1 (Ra R) (-conj (Rb R)) (Rb R) (conj (Ra R)) a b := by
  rw [Dlm_CR (by omega) (by omega) (by omega)]
  congr 1
  unfold CR C3
  rw [if_pos ⟨by omega, by omega, by omega⟩]
  generalize Ra R = p
  generalize -conj (Rb R) = q
  generalize Rb R = r
  generalize conj p = s
  rcases ha with rfl | rfl | rfl <;> rcases hb with rfl | rfl | rfl <;>
    simp [coef, M1, Finset.sum_filter, Finset.sum_range_succ, Nat.choose]

theorem nuZ_ne (l m : Int) : ((nuZ l m : ℝ) : ℂ) ≠ 0 := by exact_mod_cast (nuZ_pos l m).ne'

/-- The common factor. -/
noncomputable def WW (l m σ a b : Int) : ℂ := ((nuZ 1 b : ℝ) : ℂ) / (nuZ 1 a : ℝ) * (((nuZ l σ : ℝ) : ℂ) / (nuZ l m : ℝ))

theorem term0 {l m σ a b : Int} (h0 : 0 ≤ l) (h1 : -l ≤ m) (h2 : m ≤ l) (h3 : -l ≤ σ) (h4 : σ ≤ l) (ha : a = 1 ∨ a = 0 ∨ a = -1) (hb : b = 1 ∨ b = 0 ∨ b = -1) :
    ((2 * l + 1) * (2 * l + 2) : ℂ) * (((cg l m a (l + 1) * cg l σ b (l + 1) : ℝ) : ℂ) * Dlm (l + 1) R (m + a) (σ + b)) =
      WW l m σ a b * (B0 b (2 * l : Int) (l + σ : Int) * CR R (2 * l + 2) (l + m + 1 + a) (l + σ + 1 + b)) := by
  rw [Dlm_CR (by omega) (by omega) (by omega), show 2 * (l + 1) = 2 * l + 2 by ring, show l + 1 + (m + a) = l + m + 1 + a by ring, show l + 1 + (σ + b) = l + σ + 1 + b by ring]
  have e1 := congrArg (fun x : ℝ => (x : ℂ)) (row0 h1 h2 ha)
  have e2 := column0 h3 h4 hb
  have e3 := congrArg (fun x : ℝ => (x : ℂ)) (N0_sq l h0)
  have k : ((√2 : ℝ) : ℂ) ≠ 0 := by exact_mod_cast (Real.sqrt_pos.2 (show (0 : ℝ) < 2 by norm_num)).ne'
  push_cast at e1 e2 e3 ⊢
  unfold WW
  have n1 := nuZ_ne 1 a
  have n2 := nuZ_ne l m
  have n3 := nuZ_ne (l + 1) (m + a)
  generalize CR R _ _ _ = X
  generalize B0 b _ _ = B at *
  rw [← e3]
  field_simp
  refine mul_left_cancel₀ k ?_
  linear_combination X * (cg l σ b (l + 1)) * (N0 l) * (nuZ (l + 1) (σ + b)) * (√2 : ℝ) * e1 + X * ((√2 : ℝ) : ℂ) * (nuZ (l + 1) (m + a)) * e2

theorem term1 {l m σ a b : Int} (h0 : 1 ≤ l) (h1 : -l ≤ m) (h2 : m ≤ l) (h3 : -l ≤ σ) (h4 : σ ≤ l) (ha : a = 1 ∨ a = 0 ∨ a = -1) (hb : b = 1 ∨ b = 0 ∨ b = -1) :
    ((2 * l) * (2 * l + 2) : ℂ) * (((cg l m a l * cg l σ b l : ℝ) : ℂ) * Dlm l R (m + a) (σ + b)) =
      WW l m σ a b * (A1 a (2 * l : Int) (l + m : Int) * B1 b (2 * l : Int) (l + σ : Int) * CR R (2 * l) (l + m + a) (l + σ + b)) := by
  by_cases hm : -l ≤ m + a ∧ m + a ≤ l
  swap
  · rw [cg_zero' hm, show CR R (2 * l) (l + m + a) (l + σ + b) = 0 from C3_neg (by omega)]
    push_cast
    ring
  by_cases hs : -l ≤ σ + b ∧ σ + b ≤ l
  swap
  · rw [cg_zero' hs]
    have : CR R (2 * l) (l + m + a) (l + σ + b) = 0 := by
      by_cases h : 0 ≤ l + σ + b
      · exact C3_large (by omega)
      · exact C3_neg (by omega)
    rw [this]
    push_cast
    ring
  rw [Dlm_CR hm.1 hm.2 hs.1, show l + (m + a) = l + m + a by ring, show l + (σ + b) = l + σ + b by ring]
  have e1 := row1 h0 h1 h2 ha hm.1 hm.2
  have e2 := column1 h0 h3 h4 hb hs.1 hs.2
  have e3 := congrArg (fun x : ℝ => (x : ℂ)) (N1_sq l (by omega))
  push_cast at e1 e2 e3 ⊢
  unfold WW
  have n1 := nuZ_ne 1 a
  have n2 := nuZ_ne l m
  have n3 := nuZ_ne l (m + a)
  generalize CR R _ _ _ = X
  generalize B1 b _ _ = B at *
  generalize A1 a _ _ = A at *
  have e4 : (l : ℂ) * 2 * (2 * l + 2) = N1 l * N1 l := by rw [e3]; ring
  field_simp
  have e5 : (l : ℂ) * (l + 1) * 2 ^ 2 = N1 l * N1 l := by rw [e3]; ring
  linear_combination (exp := 1) X * (cg l σ b l) * (N1 l) * (nuZ l (σ + b)) * e1 - X * A * (nuZ l (m + a)) * e2 + (cg l m a l * cg l σ b l * nuZ l (σ + b) * X * nuZ 1 a * nuZ l m) * e5

theorem term2 {l m σ a b : Int} (h0 : 1 ≤ l) (h1 : -l ≤ m) (h2 : m ≤ l) (h3 : -l ≤ σ) (h4 : σ ≤ l) (ha : a = 1 ∨ a = 0 ∨ a = -1) (hb : b = 1 ∨ b = 0 ∨ b = -1) :
    ((2 * l) * (2 * l + 1) : ℂ) * (((cg l m a (l - 1) * cg l σ b (l - 1) : ℝ) : ℂ) * Dlm (l - 1) R (m + a) (σ + b)) =
      WW l m σ a b * (A2 a (2 * l : Int) (l + m : Int) * B2 b * CR R (2 * l - 2) (l + m - 1 + a) (l + σ - 1 + b)) := by
  by_cases hm : -(l - 1) ≤ m + a ∧ m + a ≤ l - 1
  swap
  · rw [cg_zero' hm, show CR R (2 * l - 2) (l + m - 1 + a) (l + σ - 1 + b) = 0 from C3_neg (by omega)]
    push_cast
    ring
  by_cases hs : -(l - 1) ≤ σ + b ∧ σ + b ≤ l - 1
  swap
  · rw [cg_zero' hs]
    have : CR R (2 * l - 2) (l + m - 1 + a) (l + σ - 1 + b) = 0 := by
      by_cases h : 0 ≤ l + σ - 1 + b
      · exact C3_large (by omega)
      · exact C3_neg (by omega)
    rw [this]
    push_cast
    ring
  rw [Dlm_CR hm.1 hm.2 hs.1, show 2 * (l - 1) = 2 * l - 2 by ring, show l - 1 + (m + a) = l + m - 1 + a by ring, show l - 1 + (σ + b) = l + σ - 1 + b by ring]
  have e1 := row2 h0 h1 h2 ha hm.1 hm.2
  have e2 := column2 h0 h3 h4 hb hs.1 hs.2
  have e3 := congrArg (fun x : ℝ => (x : ℂ)) (N2_sq l (by omega))
  have k : ((√2 : ℝ) : ℂ) ≠ 0 := by exact_mod_cast (Real.sqrt_pos.2 (show (0 : ℝ) < 2 by norm_num)).ne'
  push_cast at e1 e2 e3 ⊢
  unfold WW
  have n1 := nuZ_ne 1 a
  have n2 := nuZ_ne l m
  have n3 := nuZ_ne (l - 1) (m + a)
  generalize CR R _ _ _ = X
  generalize B2 b = B at *
  generalize A2 a _ _ = A at *
  rw [← e3]
  field_simp
  refine mul_left_cancel₀ k ?_
  linear_combination X * (cg l σ b (l - 1)) * (N2 l) * (nuZ (l - 1) (σ + b)) * (√2 : ℝ) * e1 + X * ((√2 : ℝ) : ℂ) * A * (nuZ (l - 1) (m + a)) * e2

/-- The product of a matrix element with one of angular momentum 1. -/
theorem D_series (hR : Spec.Unit R) {l m σ a b : Int} (h0 : 0 ≤ l) (h1 : -l ≤ m) (h2 : m ≤ l) (h3 : -l ≤ σ) (h4 : σ ≤ l) (ha : a = 1 ∨ a = 0 ∨ a = -1) (hb : b = 1 ∨ b = 0 ∨ b = -1) :
    Dlm 1 R a b * Dlm l R m σ = ((cg l m a (l + 1) * cg l σ b (l + 1) : ℝ) : ℂ) * Dlm (l + 1) R (m + a) (σ + b) + ((cg l m a l * cg l σ b l : ℝ) : ℂ) * Dlm l R (m + a) (σ + b) +
      ((cg l m a (l - 1) * cg l σ b (l - 1) : ℝ) : ℂ) * Dlm (l - 1) R (m + a) (σ + b) := by
  have t0 := term0 (R := R) h0 h1 h2 h3 h4 ha hb
  rcases h0.eq_or_lt with rfl | hl
  · have hm : m = 0 := by omega
    have hs : σ = 0 := by omega
    subst hm hs
    rw [cg_zero_zero, show cg 0 0 a (0 - 1) = 0 from cg_neg (by omega)]
    have e0 : Dlm 0 R 0 0 = 1 := by simp [Dlm, D, coef, nu]
    have c0 : ∀ q : Int, (q = 1 ∨ q = 0 ∨ q = -1) → cg 0 0 q (0 + 1) = 1 := by
      rintro q (rfl | rfl | rfl) <;> simp [cg]
    rw [e0, c0 a ha, c0 b hb]
    simp
  · have hl : 1 ≤ l := hl
    have t1 := term1 (R := R) hl h1 h2 h3 h4 ha hb
    have t2 := term2 (R := R) hl h1 h2 h3 h4 ha hb
    have pr := product_rule (unit_det hR) (2 * l) (l + m) (l + σ) (by omega) (by omega) a b ha hb
    have lc : (l : ℂ) ≠ 0 := by exact_mod_cast (show l ≠ 0 by omega)
    have l1 : (2 * l + 1 : ℂ) ≠ 0 := by exact_mod_cast (show 2 * l + 1 ≠ 0 by omega)
    have l2 : (2 * l + 2 : ℂ) ≠ 0 := by exact_mod_cast (show 2 * l + 2 ≠ 0 by omega)
    rw [Dlm_one ha hb, Dlm_CR h1 h2 h3]
    have nz : (2 * l * (2 * l + 1) * (2 * l + 2) : ℂ) ≠ 0 := mul_ne_zero (mul_ne_zero (mul_ne_zero two_ne_zero lc) l1) l2
    refine mul_left_cancel₀ nz ?_
    have w : ((nuZ 1 b : ℝ) : ℂ) / (nuZ 1 a : ℝ) * M1 (Ra R) (-conj (Rb R)) (Rb R) (conj (Ra R)) a b * (((nuZ l σ : ℝ) : ℂ) / (nuZ l m : ℝ) * CR R (2 * l) (l + m) (l + σ)) =
      WW l m σ a b * (M1 (Ra R) (-conj (Rb R)) (Rb R) (conj (Ra R)) a b * CR R (2 * l) (l + m) (l + σ)) := by
      unfold WW
      ring
    rw [w]
    change _ * (_ * CR R (2 * l) (l + m) (l + σ)) = _ * _ * CR R (2 * l + 2) (l + m + 1 + a) (l + σ + 1 + b) + _ * _ * CR R (2 * l) (l + m + a) (l + σ + b) + _ * _ * CR R (2 * l - 2) (l + m - 1 + a) (l + σ - 1 + b) at pr
    push_cast at pr t0 t1 t2 ⊢
    linear_combination WW l m σ a b * pr - 2 * (l : ℂ) * t0 - (2 * l + 1 : ℂ) * t1 - (2 * l + 2 : ℂ) * t2

/-- The coefficient of `Y (s + b) lp (m + a)` in the product of `Y b 1 a` and `Y s l m`. -/
noncomputable def gaunt (b s l m a lp : Int) : ℝ := √(3 * (2 * l + 1) / (4 * π * (2 * lp + 1))) * cg l m a lp * cg l (-s) (-b) lp

theorem sign_add (s b : Int) : ((-1 : ℂ)) ^ b.natAbs * (-1) ^ s.natAbs = (-1) ^ (s + b).natAbs := by
  rw [← pow_add]
  apply neg_one_pow_congr
  rw [Int.natAbs_even, Nat.even_add, Int.natAbs_even, Int.natAbs_even, Int.even_add]
  tauto

theorem sqrt_gaunt (l lp : Int) (h : 0 ≤ l) (h' : 0 ≤ lp) : √((2 * (1 : Int) + 1) / (4 * π)) * √((2 * l + 1) / (4 * π)) = √(3 * (2 * l + 1) / (4 * π * (2 * lp + 1))) * √((2 * lp + 1) / (4 * π)) := by
  have hl : (0 : ℝ) ≤ l := by exact_mod_cast h
  have hl' : (0 : ℝ) ≤ lp := by exact_mod_cast h'
  rw [← Real.sqrt_mul (by positivity), ← Real.sqrt_mul (by positivity)]
  congr 1
  have : (2 * lp + 1 : ℝ) ≠ 0 := by positivity
  have := Real.pi_ne_zero
  push_cast
  field_simp
  ring

theorem Y_term {s l m a b lp : Int} (h0 : 0 ≤ l) :
    ((-1) ^ b.natAbs * (√((2 * (1 : Int) + 1) / (4 * π)) : ℝ)) * ((-1) ^ s.natAbs * (√((2 * l + 1) / (4 * π)) : ℝ)) * (((cg l m a lp * cg l (-s) (-b) lp : ℝ) : ℂ) * Dlm lp R (m + a) (-s + -b)) =
      (gaunt b s l m a lp : ℝ) * Y (s + b) lp (m + a) R := by
  by_cases h : -lp ≤ -s + -b ∧ -s + -b ≤ lp
  swap
  · unfold gaunt
    rw [cg_zero' h]
    push_cast
    ring
  · have e : |s + b| ≤ lp := by rw [abs_le]; omega
    have q := congrArg (fun x : ℝ => (x : ℂ)) (sqrt_gaunt l lp h0 (by omega))
    have sg := sign_add s b
    unfold Y gaunt
    rw [if_pos e, show -(s + b) = -s + -b by ring, ← sg]
    push_cast at q ⊢
    linear_combination ((-1 : ℂ)) ^ b.natAbs * (-1) ^ s.natAbs * ((cg l m a lp : ℂ) * cg l (-s) (-b) lp * Dlm lp R (m + a) (-s + -b)) * q

/-- The product of a harmonic with one of angular momentum 1. -/
theorem Y_series (hR : Spec.Unit R) {s l m a b : Int} (h0 : 0 ≤ l) (h1 : -l ≤ m) (h2 : m ≤ l) (ha : a = 1 ∨ a = 0 ∨ a = -1) (hb : b = 1 ∨ b = 0 ∨ b = -1) :
    Y b 1 a R * Y s l m R = (gaunt b s l m a (l + 1) : ℝ) * Y (s + b) (l + 1) (m + a) R + (gaunt b s l m a l : ℝ) * Y (s + b) l (m + a) R + (gaunt b s l m a (l - 1) : ℝ) * Y (s + b) (l - 1) (m + a) R := by
  by_cases hs : -l ≤ s ∧ s ≤ l
  swap
  · have e : ∀ lp, gaunt b s l m a lp = 0 := fun lp => by
      unfold gaunt
      rw [cg_zero (m := -s) (by omega)]
      ring
    rw [e, e, e]
    unfold Y
    rw [if_neg (show ¬ |s| ≤ l by rw [abs_le]; omega)]
    push_cast
    ring
  · rw [← Y_term h0, ← Y_term h0, ← Y_term h0]
    have d := D_series hR h0 h1 h2 (show -l ≤ -s by omega) (show -s ≤ l by omega) ha (show -b = 1 ∨ -b = 0 ∨ -b = -1 by omega)
    unfold Y
    rw [if_pos (show |b| ≤ 1 by rw [abs_le]; omega), if_pos (show |s| ≤ l by rw [abs_le]; omega)]
    linear_combination ((-1) ^ b.natAbs * (√((2 * (1 : Int) + 1) / (4 * π)) : ℝ)) * ((-1) ^ s.natAbs * (√((2 * l + 1) / (4 * π)) : ℝ)) * d

end Verif.Wigner
