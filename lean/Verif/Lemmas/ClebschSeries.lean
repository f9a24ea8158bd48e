import Verif.Lemmas.ClebschProduct

/-!
# The Clebsch-Gordan series for products with angular momentum 1
-/

namespace Verif.Wigner
open Real Verif.Flux

/-- The normalisation for integer `ell`, `m`. -/
noncomputable def nuZ (l m : Int) : ℝ := nu (2 * l).toNat (l + m).toNat

noncomputable def vv (i k : ℕ) : ℝ := √((i.factorial : ℝ) * (k.factorial : ℝ))

theorem vv_pos (i k : ℕ) : 0 < vv i k := by
  unfold vv
  positivity

theorem nuZ_pos (l m : Int) : 0 < nuZ l m := nu_pos _ _

theorem nuZ_eq {l m : Int} {i k : ℕ} (hi : (i : Int) = l + m) (hk : (k : Int) = l - m) : nuZ l m = vv i k := by
  unfold nuZ nu vv
  have e1 : (l + m).toNat = i := by omega
  have e2 : (2 * l).toNat - i = k := by omega
  rw [e1, e2]

theorem vv_left (i k : ℕ) : vv (i + 1) k = √(i + 1 : ℝ) * vv i k := by
  unfold vv
  rw [← Real.sqrt_mul (by positivity), Nat.factorial_succ]
  congr 1
  push_cast
  ring

theorem vv_right (i k : ℕ) : vv i (k + 1) = √(k + 1 : ℝ) * vv i k := by
  unfold vv
  rw [← Real.sqrt_mul (by positivity), Nat.factorial_succ]
  congr 1
  push_cast
  ring

noncomputable def N0 (l : Int) : ℝ := √(2 * l + 1) * (√2 * √(l + 1))
noncomputable def N1 (l : Int) : ℝ := 2 * (√l * √(l + 1))
noncomputable def N2 (l : Int) : ℝ := √2 * √l * √(2 * l + 1)

theorem N0_sq (l : Int) (h : 0 ≤ l) : N0 l * N0 l = (2 * l + 1) * (2 * l + 2) := by
  have hl : (0 : ℝ) ≤ l := by exact_mod_cast h
  unfold N0
  have e1 := Real.mul_self_sqrt (show (0 : ℝ) ≤ 2 * l + 1 by linarith)
  have e2 := Real.mul_self_sqrt (show (0 : ℝ) ≤ 2 by norm_num)
  have e3 := Real.mul_self_sqrt (show (0 : ℝ) ≤ l + 1 by linarith)
  linear_combination (√2 * √2 * (√(l + 1) * √(l + 1))) * e1 + (2 * l + 1) * (√(l + 1) * √(l + 1)) * e2 + (2 * l + 1) * 2 * e3

theorem N1_sq (l : Int) (h : 0 ≤ l) : N1 l * N1 l = 2 * l * (2 * l + 2) := by
  have hl : (0 : ℝ) ≤ l := by exact_mod_cast h
  unfold N1
  have e1 := Real.mul_self_sqrt hl
  have e3 := Real.mul_self_sqrt (show (0 : ℝ) ≤ l + 1 by linarith)
  linear_combination (4 * (√(l + 1) * √(l + 1))) * e1 + 4 * l * e3

theorem N2_sq (l : Int) (h : 0 ≤ l) : N2 l * N2 l = 2 * l * (2 * l + 1) := by
  have hl : (0 : ℝ) ≤ l := by exact_mod_cast h
  unfold N2
  have e1 := Real.mul_self_sqrt hl
  have e2 := Real.mul_self_sqrt (show (0 : ℝ) ≤ 2 by norm_num)
  have e3 := Real.mul_self_sqrt (show (0 : ℝ) ≤ 2 * l + 1 by linarith)
  linear_combination (√l * √l * (√(2 * l + 1) * √(2 * l + 1))) * e2 + 2 * (√(2 * l + 1) * √(2 * l + 1)) * e1 + 2 * l * e3

theorem N0_pos (l : Int) (h : 0 ≤ l) : 0 < N0 l := by
  have hl : (0 : ℝ) ≤ l := by exact_mod_cast h
  unfold N0
  positivity
theorem N1_pos (l : Int) (h : 1 ≤ l) : 0 < N1 l := by
  have hl : (1 : ℝ) ≤ l := by exact_mod_cast h
  unfold N1
  positivity
theorem N2_pos (l : Int) (h : 1 ≤ l) : 0 < N2 l := by
  have hl : (1 : ℝ) ≤ l := by exact_mod_cast h
  unfold N2
  positivity

/-! ## The coefficients and the normalisations -/

theorem cg0_p {l m : Int} {i k : ℕ} (hi : (i : Int) = l + m) (hk : (k : Int) = l - m) :
    cg l m 1 (l + 1) * N0 l = √(i + 1 : ℝ) * √(i + 2 : ℝ) ∧ cg l m 0 (l + 1) * N0 l = √2 * (√(i + 1 : ℝ) * √(k + 1 : ℝ)) ∧ cg l m (-1) (l + 1) * N0 l = √(k + 1 : ℝ) * √(k + 2 : ℝ) := by
  have hir : (i : ℝ) = l + m := by exact_mod_cast hi
  have hkr : (k : ℝ) = l - m := by exact_mod_cast hk
  have hl : 0 ≤ l := by omega
  have hp := (N0_pos l hl).ne'
  obtain ⟨h1, h2, h3⟩ := cg_up (l + 1) m (by omega) (by omega) (by omega)
  rw [add_sub_cancel_right] at h1 h2 h3
  push_cast at h1 h2 h3
  rw [show (2 * ((l : ℝ) + 1) - 1) = 2 * l + 1 by ring] at h1 h2 h3
  have h0 : (√(2 * l + 1 : ℝ) * (√2 * √(l + 1 : ℝ))) ≠ 0 := hp
  have h0' : √(2 * l + 1 : ℝ) * √(l + 1 : ℝ) ≠ 0 := by
    have hl : (0 : ℝ) ≤ l := by exact_mod_cast hl
    positivity
  refine ⟨?_, ?_, ?_⟩
  · rw [h1, hir]
    unfold N0
    rw [div_mul_cancel₀ _ h0]
    ring_nf
  · rw [h2, hir, hkr]
    unfold N0
    rw [show √(2 * l + 1 : ℝ) * (√2 * √(l + 1 : ℝ)) = (√(2 * l + 1 : ℝ) * √(l + 1 : ℝ)) * √2 by ring, ← mul_assoc, div_mul_cancel₀ _ h0']
    ring_nf
  · rw [h3, hkr]
    unfold N0
    rw [div_mul_cancel₀ _ h0]
    ring_nf

theorem cg1_p {l m : Int} (hl : 1 ≤ l) {i k : ℕ} (hi : (i : Int) = l + m) (hk : (k : Int) = l - m) :
    cg l m 1 l * N1 l = -√2 * (√(i + 1 : ℝ) * √(k : ℝ)) ∧ cg l m 0 l * N1 l = i - k ∧ cg l m (-1) l * N1 l = √2 * (√(k + 1 : ℝ) * √(i : ℝ)) := by
  have hir : (i : ℝ) = l + m := by exact_mod_cast hi
  have hkr : (k : ℝ) = l - m := by exact_mod_cast hk
  obtain ⟨h1, h2, h3⟩ := cg_same l m hl (by omega) (by omega)
  have hlr : (1 : ℝ) ≤ l := by exact_mod_cast hl
  have h0 : (√l * √(l + 1 : ℝ)) ≠ 0 := by positivity
  have e2 := Real.mul_self_sqrt (show (0 : ℝ) ≤ 2 by norm_num)
  have hs : √2 ≠ 0 := by positivity
  refine ⟨?_, ?_, ?_⟩
  · rw [h1, hir, hkr]
    unfold N1
    rw [show (√2 * √l * √(l + 1 : ℝ)) = √2 * (√l * √(l + 1 : ℝ)) by ring]
    generalize √l * √(l + 1 : ℝ) = x at *
    generalize √(l + m + 1 : ℝ) * √(l - m : ℝ) = y at *
    field_simp
    linear_combination y * e2
  · rw [h2, hir, hkr]
    unfold N1
    generalize √l * √(l + 1 : ℝ) = x at *
    field_simp
    ring
  · rw [h3, hir, hkr]
    unfold N1
    rw [show (√2 * √l * √(l + 1 : ℝ)) = √2 * (√l * √(l + 1 : ℝ)) by ring]
    generalize √l * √(l + 1 : ℝ) = x at *
    generalize √(l - m + 1 : ℝ) * √(l + m : ℝ) = y at *
    field_simp
    linear_combination -y * e2

theorem cg2_p {l m : Int} (hl : 1 ≤ l) {i k : ℕ} (hi : (i : Int) = l + m) (hk : (k : Int) = l - m) :
    cg l m 1 (l - 1) * N2 l = √(k - 1 : ℝ) * √(k : ℝ) ∧ cg l m 0 (l - 1) * N2 l = -√2 * (√(k : ℝ) * √(i : ℝ)) ∧ cg l m (-1) (l - 1) * N2 l = √(i : ℝ) * √(i - 1 : ℝ) := by
  have hir : (i : ℝ) = l + m := by exact_mod_cast hi
  have hkr : (k : ℝ) = l - m := by exact_mod_cast hk
  obtain ⟨h1, h2, h3⟩ := cg_down (l - 1) m (by omega) (by omega) (by omega)
  rw [sub_add_cancel] at h1 h2 h3
  push_cast at h1 h2 h3
  rw [show (2 * ((l : ℝ) - 1) + 3) = 2 * l + 1 by ring, show ((l : ℝ) - 1 + 1) = l by ring] at h1 h2 h3
  have hlr : (1 : ℝ) ≤ l := by exact_mod_cast hl
  have h0 : (√2 * √l * √(2 * l + 1 : ℝ)) ≠ 0 := by positivity
  have h0' : (√l * √(2 * l + 1 : ℝ)) ≠ 0 := by positivity
  refine ⟨?_, ?_, ?_⟩
  · rw [h1, hkr]
    unfold N2
    rw [div_mul_cancel₀ _ h0]
    ring_nf
  · rw [h2, hir, hkr]
    unfold N2
    rw [neg_mul, show √2 * √l * √(2 * l + 1 : ℝ) = (√l * √(2 * l + 1 : ℝ)) * √2 by ring, ← mul_assoc, div_mul_cancel₀ _ h0']
    ring_nf
  · rw [h3, hir]
    unfold N2
    rw [div_mul_cancel₀ _ h0]
    ring_nf

theorem one_p : nuZ 1 1 = √2 := by
  rw [nuZ_eq (i := 2) (k := 0) rfl rfl]
  unfold vv
  norm_num
theorem one_z : nuZ 1 0 = 1 := by
  rw [nuZ_eq (i := 1) (k := 1) rfl rfl]
  unfold vv
  norm_num
theorem one_m : nuZ 1 (-1) = √2 := by
  rw [nuZ_eq (i := 0) (k := 2) rfl rfl]
  unfold vv
  norm_num

theorem indices {l m : Int} (h1 : -l ≤ m) (h2 : m ≤ l) : ∃ i k : ℕ, (i : Int) = l + m ∧ (k : Int) = l - m :=
  ⟨(l + m).toNat, (l - m).toNat, by omega, by omega⟩

theorem sqrt_two_sq : √2 * √2 = (2 : ℝ) := Real.mul_self_sqrt (by norm_num)

/-- To the next higher angular momentum. -/
theorem row0 {l m a : Int} (h1 : -l ≤ m) (h2 : m ≤ l) (ha : a = 1 ∨ a = 0 ∨ a = -1) : cg l m a (l + 1) * N0 l * nuZ l m * nuZ 1 a = √2 * nuZ (l + 1) (m + a) := by
  obtain ⟨i, k, hi, hk⟩ := indices h1 h2
  obtain ⟨c1, c2, c3⟩ := cg0_p hi hk
  rw [nuZ_eq hi hk]
  rcases ha with rfl | rfl | rfl
  · rw [c1, one_p, nuZ_eq (i := i + 1 + 1) (k := k) (by push_cast; omega) (by omega), vv_left, vv_left]
    push_cast
    rw [show (i : ℝ) + 1 + 1 = i + 2 by ring]
    ring
  · rw [c2, one_z, nuZ_eq (i := i + 1) (k := k + 1) (by push_cast; omega) (by push_cast; omega), vv_left, vv_right]
    ring
  · rw [c3, one_m, nuZ_eq (i := i) (k := k + 1 + 1) (by omega) (by push_cast; omega), vv_right, vv_right]
    push_cast
    rw [show (k : ℝ) + 1 + 1 = k + 2 by ring]
    ring

theorem column0 {l m a : Int} (h1 : -l ≤ m) (h2 : m ≤ l) (ha : a = 1 ∨ a = 0 ∨ a = -1) :
    ((cg l m a (l + 1) * N0 l * nuZ (l + 1) (m + a) * √2 : ℝ) : ℂ) = B0 a (2 * l : Int) (l + m : Int) * (nuZ 1 a * nuZ l m : ℝ) := by
  have hr := row0 h1 h2 ha
  obtain ⟨i, k, hi, hk⟩ := indices h1 h2
  obtain ⟨c1, c2, c3⟩ := cg0_p hi hk
  have hir : (i : ℝ) = l + m := by exact_mod_cast hi
  have hkr : (k : ℝ) = l - m := by exact_mod_cast hk
  have e1 := Real.mul_self_sqrt (show (0 : ℝ) ≤ i + 1 by positivity)
  have e2 := Real.mul_self_sqrt (show (0 : ℝ) ≤ i + 2 by positivity)
  have e3 := Real.mul_self_sqrt (show (0 : ℝ) ≤ k + 1 by positivity)
  have e4 := Real.mul_self_sqrt (show (0 : ℝ) ≤ k + 2 by positivity)
  have key : cg l m a (l + 1) * N0 l * nuZ (l + 1) (m + a) * √2 = (cg l m a (l + 1) * N0 l) * (cg l m a (l + 1) * N0 l) * (nuZ 1 a * nuZ l m) := by
    linear_combination -(cg l m a (l + 1) * N0 l) * hr
  rw [key]
  rcases ha with rfl | rfl | rfl
  · rw [c1]
    simp only [B0, reduceIte]
    have : √(i + 1 : ℝ) * √(i + 2 : ℝ) * (√(i + 1 : ℝ) * √(i + 2 : ℝ)) = (l + m + 1) * (l + m + 2) := by
      rw [← hir]
      linear_combination (√(i + 2 : ℝ) * √(i + 2 : ℝ)) * e1 + (i + 1) * e2
    rw [this]
    push_cast
    ring
  · rw [c2]
    simp only [B0, reduceIte, zero_ne_one]
    have : √2 * (√(i + 1 : ℝ) * √(k + 1 : ℝ)) * (√2 * (√(i + 1 : ℝ) * √(k + 1 : ℝ))) = 2 * (l + m + 1) * (l - m + 1) := by
      rw [← hir, ← hkr]
      linear_combination (√(i + 1 : ℝ) * √(i + 1 : ℝ)) * (√(k + 1 : ℝ) * √(k + 1 : ℝ)) * sqrt_two_sq + 2 * (√(k + 1 : ℝ) * √(k + 1 : ℝ)) * e1 + 2 * (i + 1) * e3
    rw [this]
    push_cast
    ring
  · rw [c3]
    simp only [B0, reduceIte, Int.reduceNeg, Int.reduceEq]
    have : √(k + 1 : ℝ) * √(k + 2 : ℝ) * (√(k + 1 : ℝ) * √(k + 2 : ℝ)) = (l - m + 1) * (l - m + 2) := by
      rw [← hkr]
      linear_combination (√(k + 2 : ℝ) * √(k + 2 : ℝ)) * e3 + (k + 1) * e4
    rw [this]
    push_cast
    ring

/-- To the same angular momentum. -/
theorem row1 {l m a : Int} (hl : 1 ≤ l) (h1 : -l ≤ m) (h2 : m ≤ l) (ha : a = 1 ∨ a = 0 ∨ a = -1) (h3 : -l ≤ m + a) (h4 : m + a ≤ l) :
    ((cg l m a l * N1 l * nuZ l m * nuZ 1 a : ℝ) : ℂ) = -A1 a (2 * l : Int) (l + m : Int) * (nuZ l (m + a) : ℝ) := by
  obtain ⟨i, k, hi, hk⟩ := indices h1 h2
  obtain ⟨c1, c2, c3⟩ := cg1_p hl hi hk
  have hir : (i : ℝ) = l + m := by exact_mod_cast hi
  have hkr : (k : ℝ) = l - m := by exact_mod_cast hk
  have ei := Real.mul_self_sqrt (show (0 : ℝ) ≤ i by positivity)
  have ek := Real.mul_self_sqrt (show (0 : ℝ) ≤ k by positivity)
  rcases ha with rfl | rfl | rfl
  · obtain ⟨k, rfl⟩ : ∃ k', k = k' + 1 := ⟨k - 1, by omega⟩
    rw [c1, one_p, nuZ_eq hi hk, nuZ_eq (i := i + 1) (k := k) (by push_cast; omega) (by push_cast at hk; omega), vv_left, vv_right]
    simp only [A1, reduceIte]
    push_cast at ek hkr ⊢
    have : -√2 * (√(i + 1 : ℝ) * √(k + 1 : ℝ)) * (√(k + 1 : ℝ) * vv i k) * √2 = -(2 * (l - m)) * (√(i + 1 : ℝ) * vv i k) := by
      rw [← hkr]
      linear_combination (-√(i + 1 : ℝ) * vv i k * (√(k + 1 : ℝ) * √(k + 1 : ℝ))) * sqrt_two_sq - 2 * √(i + 1 : ℝ) * vv i k * ek
    have := congrArg (fun x : ℝ => (x : ℂ)) this
    push_cast at this
    linear_combination this
  · rw [c2, one_z, add_zero, nuZ_eq hi hk]
    simp only [A1, reduceIte, zero_ne_one]
    rw [hir, hkr]
    push_cast
    ring
  · obtain ⟨i, rfl⟩ : ∃ i', i = i' + 1 := ⟨i - 1, by omega⟩
    rw [c3, one_m, nuZ_eq hi hk, nuZ_eq (i := i) (k := k + 1) (by push_cast at hi; omega) (by push_cast; omega), vv_left, vv_right]
    simp only [A1, reduceIte, Int.reduceNeg, Int.reduceEq]
    push_cast at ei hir ⊢
    have : √2 * (√(k + 1 : ℝ) * √(i + 1 : ℝ)) * (√(i + 1 : ℝ) * vv i k) * √2 = 2 * (l + m) * (√(k + 1 : ℝ) * vv i k) := by
      rw [← hir]
      linear_combination (√(k + 1 : ℝ) * vv i k * (√(i + 1 : ℝ) * √(i + 1 : ℝ))) * sqrt_two_sq + 2 * √(k + 1 : ℝ) * vv i k * ei
    have := congrArg (fun x : ℝ => (x : ℂ)) this
    push_cast at this
    linear_combination this

theorem column1 {l m a : Int} (hl : 1 ≤ l) (h1 : -l ≤ m) (h2 : m ≤ l) (ha : a = 1 ∨ a = 0 ∨ a = -1) (h3 : -l ≤ m + a) (h4 : m + a ≤ l) :
    ((cg l m a l * N1 l * nuZ l (m + a) : ℝ) : ℂ) = -B1 a (2 * l : Int) (l + m : Int) * (nuZ 1 a * nuZ l m : ℝ) := by
  obtain ⟨i, k, hi, hk⟩ := indices h1 h2
  obtain ⟨c1, c2, c3⟩ := cg1_p hl hi hk
  have hir : (i : ℝ) = l + m := by exact_mod_cast hi
  have hkr : (k : ℝ) = l - m := by exact_mod_cast hk
  have ei := Real.mul_self_sqrt (show (0 : ℝ) ≤ i + 1 by positivity)
  have ek := Real.mul_self_sqrt (show (0 : ℝ) ≤ k + 1 by positivity)
  rcases ha with rfl | rfl | rfl
  · obtain ⟨k, rfl⟩ : ∃ k', k = k' + 1 := ⟨k - 1, by omega⟩
    rw [c1, one_p, nuZ_eq hi hk, nuZ_eq (i := i + 1) (k := k) (by push_cast; omega) (by push_cast at hk; omega), vv_left, vv_right]
    simp only [B1, reduceIte]
    push_cast at hkr ⊢
    have : -√2 * (√(i + 1 : ℝ) * √(k + 1 : ℝ)) * (√(i + 1 : ℝ) * vv i k) = -(l + m + 1) * (√2 * (√(k + 1 : ℝ) * vv i k)) := by
      rw [← hir]
      linear_combination (-√2 * √(k + 1 : ℝ) * vv i k) * ei
    have := congrArg (fun x : ℝ => (x : ℂ)) this
    push_cast at this
    linear_combination this
  · rw [c2, one_z, add_zero, nuZ_eq hi hk]
    simp only [B1, reduceIte, zero_ne_one]
    rw [hir, hkr]
    push_cast
    ring
  · obtain ⟨i, rfl⟩ : ∃ i', i = i' + 1 := ⟨i - 1, by omega⟩
    rw [c3, one_m, nuZ_eq hi hk, nuZ_eq (i := i) (k := k + 1) (by push_cast at hi; omega) (by push_cast; omega), vv_left, vv_right]
    simp only [B1, reduceIte, Int.reduceNeg, Int.reduceEq]
    push_cast at hir ⊢
    have : √2 * (√(k + 1 : ℝ) * √(i + 1 : ℝ)) * (√(k + 1 : ℝ) * vv i k) = (l - m + 1) * (√2 * (√(i + 1 : ℝ) * vv i k)) := by
      rw [← hkr]
      linear_combination (√2 * √(i + 1 : ℝ) * vv i k) * ek
    have := congrArg (fun x : ℝ => (x : ℂ)) this
    push_cast at this
    linear_combination this

/-- To the next lower one. -/
theorem row2 {l m a : Int} (hl : 1 ≤ l) (h1 : -l ≤ m) (h2 : m ≤ l) (ha : a = 1 ∨ a = 0 ∨ a = -1) (h3 : -(l - 1) ≤ m + a) (h4 : m + a ≤ l - 1) :
    ((cg l m a (l - 1) * N2 l * nuZ l m * nuZ 1 a : ℝ) : ℂ) = (√2 : ℝ) * A2 a (2 * l : Int) (l + m : Int) * (nuZ (l - 1) (m + a) : ℝ) := by
  obtain ⟨i, k, hi, hk⟩ := indices h1 h2
  obtain ⟨c1, c2, c3⟩ := cg2_p hl hi hk
  have hir : (i : ℝ) = l + m := by exact_mod_cast hi
  have hkr : (k : ℝ) = l - m := by exact_mod_cast hk
  rcases ha with rfl | rfl | rfl
  · obtain ⟨k, rfl⟩ : ∃ k', k = k' + 1 + 1 := ⟨k - 2, by omega⟩
    rw [c1, one_p, nuZ_eq hi hk, nuZ_eq (i := i) (k := k) (by omega) (by push_cast at hk; omega), vv_right, vv_right]
    simp only [A2, reduceIte]
    push_cast at hkr ⊢
    rw [show (k : ℝ) + 1 + 1 - 1 = k + 1 by ring, show (k : ℝ) + 1 + 1 = k + 2 by ring] at *
    have e1 := Real.mul_self_sqrt (show (0 : ℝ) ≤ k + 1 by positivity)
    have e2 := Real.mul_self_sqrt (show (0 : ℝ) ≤ k + 2 by positivity)
    have : √(k + 1 : ℝ) * √(k + 2 : ℝ) * (√(k + 2 : ℝ) * (√(k + 1 : ℝ) * vv i k)) * √2 = √2 * ((l - m) * (l - m - 1)) * vv i k := by
      rw [← hkr]
      linear_combination (√2 * vv i k * (√(k + 2 : ℝ) * √(k + 2 : ℝ))) * e1 + √2 * vv i k * (k + 1) * e2
    have := congrArg (fun x : ℝ => (x : ℂ)) this
    push_cast at this
    linear_combination this
  · obtain ⟨i, rfl⟩ : ∃ i', i = i' + 1 := ⟨i - 1, by omega⟩
    obtain ⟨k, rfl⟩ : ∃ k', k = k' + 1 := ⟨k - 1, by omega⟩
    rw [c2, one_z, add_zero, nuZ_eq hi hk, nuZ_eq (i := i) (k := k) (by push_cast at hi; omega) (by push_cast at hk; omega), vv_left, vv_right]
    simp only [A2, reduceIte, zero_ne_one]
    push_cast at hir hkr ⊢
    have e1 := Real.mul_self_sqrt (show (0 : ℝ) ≤ i + 1 by positivity)
    have e2 := Real.mul_self_sqrt (show (0 : ℝ) ≤ k + 1 by positivity)
    have : -√2 * (√(k + 1 : ℝ) * √(i + 1 : ℝ)) * (√(i + 1 : ℝ) * (√(k + 1 : ℝ) * vv i k)) = √2 * (-(l + m) * (l - m)) * vv i k := by
      rw [← hir, ← hkr]
      linear_combination (-√2 * vv i k * (√(k + 1 : ℝ) * √(k + 1 : ℝ))) * e1 - √2 * vv i k * (i + 1) * e2
    have := congrArg (fun x : ℝ => (x : ℂ)) this
    push_cast at this
    linear_combination this
  · obtain ⟨i, rfl⟩ : ∃ i', i = i' + 1 + 1 := ⟨i - 2, by omega⟩
    rw [c3, one_m, nuZ_eq hi hk, nuZ_eq (i := i) (k := k) (by push_cast at hi; omega) (by omega), vv_left, vv_left]
    simp only [A2, reduceIte, Int.reduceNeg, Int.reduceEq]
    push_cast at hir ⊢
    rw [show (i : ℝ) + 1 + 1 - 1 = i + 1 by ring, show (i : ℝ) + 1 + 1 = i + 2 by ring] at *
    have e1 := Real.mul_self_sqrt (show (0 : ℝ) ≤ i + 1 by positivity)
    have e2 := Real.mul_self_sqrt (show (0 : ℝ) ≤ i + 2 by positivity)
    have : √(i + 2 : ℝ) * √(i + 1 : ℝ) * (√(i + 2 : ℝ) * (√(i + 1 : ℝ) * vv i k)) * √2 = √2 * ((l + m) * (l + m - 1)) * vv i k := by
      rw [← hir]
      linear_combination (√2 * vv i k * (√(i + 2 : ℝ) * √(i + 2 : ℝ))) * e1 + √2 * vv i k * (i + 1) * e2
    have := congrArg (fun x : ℝ => (x : ℂ)) this
    push_cast at this
    linear_combination this

theorem column2 {l m a : Int} (hl : 1 ≤ l) (h1 : -l ≤ m) (h2 : m ≤ l) (ha : a = 1 ∨ a = 0 ∨ a = -1) (h3 : -(l - 1) ≤ m + a) (h4 : m + a ≤ l - 1) :
    ((cg l m a (l - 1) * N2 l * nuZ (l - 1) (m + a) * √2 : ℝ) : ℂ) = B2 a * (nuZ 1 a * nuZ l m : ℝ) := by
  obtain ⟨i, k, hi, hk⟩ := indices h1 h2
  obtain ⟨c1, c2, c3⟩ := cg2_p hl hi hk
  rcases ha with rfl | rfl | rfl
  · obtain ⟨k, rfl⟩ : ∃ k', k = k' + 1 + 1 := ⟨k - 2, by omega⟩
    rw [c1, one_p, nuZ_eq hi hk, nuZ_eq (i := i) (k := k) (by omega) (by push_cast at hk; omega), vv_right, vv_right]
    simp only [B2, reduceIte]
    push_cast
    rw [show (k : ℝ) + 1 + 1 - 1 = k + 1 by ring]
    ring
  · obtain ⟨i, rfl⟩ : ∃ i', i = i' + 1 := ⟨i - 1, by omega⟩
    obtain ⟨k, rfl⟩ : ∃ k', k = k' + 1 := ⟨k - 1, by omega⟩
    rw [c2, one_z, add_zero, nuZ_eq hi hk, nuZ_eq (i := i) (k := k) (by push_cast at hi; omega) (by push_cast at hk; omega), vv_left, vv_right]
    simp only [B2, reduceIte, zero_ne_one]
    have := congrArg (fun x : ℝ => (x : ℂ)) sqrt_two_sq
    push_cast at this ⊢
    linear_combination (-((√(k + 1 : ℝ) : ℝ) : ℂ) * (√(i + 1 : ℝ) : ℝ) * vv i k) * this
  · obtain ⟨i, rfl⟩ : ∃ i', i = i' + 1 + 1 := ⟨i - 2, by omega⟩
    rw [c3, one_m, nuZ_eq hi hk, nuZ_eq (i := i) (k := k) (by push_cast at hi; omega) (by omega), vv_left, vv_left]
    simp only [B2, reduceIte, Int.reduceNeg, Int.reduceEq]
    push_cast
    rw [show (i : ℝ) + 1 + 1 - 1 = i + 1 by ring]
    ring

end Verif.Wigner
