import Verif.Spec.Sphere
import Verif.Spec.Flux
import Verif.Lemmas.ClebschY
import Verif.Lemmas.WignerConj
import Verif.Lemmas.FluxOps
import Verif.Lemmas.GridInjective
import Mathlib.MeasureTheory.Integral.IntervalIntegral.FundThmCalculus
import Mathlib.Analysis.SpecialFunctions.Integrals.Basic

/-!
# The harmonics are orthonormal
-/

namespace Verif.Sphere
open Real Verif.Flux Verif.Wigner ComplexConjugate Verif.GridMultiply Verif.Spec.Sphere

/-! ## Symmetry of the coefficients -/

theorem cg_rev (l m q lp : Int) (hq : q = 1 ∨ q = 0 ∨ q = -1) (h0 : 0 ≤ l) (h0' : 0 ≤ lp) :
    cg l m q lp * √(2 * l + 1 : ℝ) = (if l = lp then 1 else -1) * pm q * (√(2 * lp + 1 : ℝ) * cg lp (m + q) (-q) l) := by
  have up : ∀ L q m : Int, 1 ≤ L → (q = 1 ∨ q = 0 ∨ q = -1) → cg (L - 1) m q L * √(2 * L - 1 : ℝ) = -1 * pm q * (√(2 * L + 1 : ℝ) * cg L (m + q) (-q) (L - 1)) := by
    intro L q m hL hq
    by_cases hm : -(L - 1) ≤ m ∧ m ≤ L - 1
    · obtain ⟨r1, r0, rm⟩ := cg_rev_up L m hm
      rcases hq with rfl | rfl | rfl
      · rw [r1]; simp [pm]
      · rw [r0]; simp [pm]
      · rw [rm]; simp [pm, sub_eq_add_neg]
    · rw [cg_zero hm, cg_zero' (l := L) (m := m + q) (q := -q) (lp := L - 1) (by omega)]; ring
  by_cases h1 : lp < l - 1 ∨ l + 1 < lp
  · rw [cg_far h1, cg_far (by omega)]; ring
  · have : lp = l + 1 ∨ lp = l ∨ lp = l - 1 := by omega
    rcases this with rfl | rfl | rfl
    · have := up (l + 1) q m (by omega) hq
      rw [show l + 1 - 1 = l by ring] at this
      push_cast at this ⊢
      rw [if_neg (by omega), ← this]
      congr 2
      ring
    · rw [if_pos rfl]
      rcases hq with rfl | rfl | rfl
      · rw [cg_rev_same]; simp [pm]; ring
      · simp [pm]; ring
      · have := cg_rev_same lp (m + -1)
        rw [neg_add_cancel_right] at this
        rw [neg_neg, this]; simp [pm]; ring
    · have := up l (-q) (m + q) (by omega) (by omega)
      rw [neg_neg, add_neg_cancel_right] at this
      rw [if_neg (by omega)]
      push_cast
      rw [show (2 * (l - 1) + 1 : ℝ) = 2 * l - 1 by ring, mul_comm (√(2 * l - 1 : ℝ)), this]
      rcases hq with rfl | rfl | rfl <;> simp [pm] <;> ring

theorem gaunt_split (b s l m a lp : Int) (h0 : 0 ≤ l) (h0' : 0 ≤ lp) : gaunt b s l m a lp = √(3 / (4 * π)) * (√(2 * l + 1 : ℝ) / √(2 * lp + 1 : ℝ)) * cg l m a lp * cg l (-s) (-b) lp := by
  have hl : (0 : ℝ) ≤ l := by exact_mod_cast h0
  have hl' : (0 : ℝ) ≤ lp := by exact_mod_cast h0'
  unfold gaunt
  rw [← Real.sqrt_div (by positivity), ← Real.sqrt_mul (by positivity)]
  congr 3
  have : (2 * lp + 1 : ℝ) ≠ 0 := by positivity
  have := Real.pi_ne_zero
  field_simp

theorem gaunt_symm (b s l m a lp : Int) (hb : b = 1 ∨ b = 0 ∨ b = -1) (ha : a = 1 ∨ a = 0 ∨ a = -1) (h0 : 0 ≤ l) (h0' : 0 ≤ lp) :
    gaunt b s l m a lp = pm a * pm b * gaunt (-b) (s + b) lp (m + a) (-a) l := by
  have e1 := cg_rev l m a lp ha h0 h0'
  have e2 := cg_rev l (-s) (-b) lp (by omega) h0 h0'
  rw [gaunt_split _ _ _ _ _ _ h0 h0', gaunt_split _ _ _ _ _ _ h0' h0]
  have hl : (0 : ℝ) ≤ l := by exact_mod_cast h0
  have hl' : (0 : ℝ) ≤ lp := by exact_mod_cast h0'
  have p1 : 0 < √(2 * l + 1 : ℝ) := Real.sqrt_pos.2 (by positivity)
  have p2 : 0 < √(2 * lp + 1 : ℝ) := Real.sqrt_pos.2 (by positivity)
  rw [show -(s + b) = -s + -b by ring]
  have pb : pm (-b) = pm b := by
    rcases hb with rfl | rfl | rfl <;> simp [pm]
  rw [pb] at e2
  have ss : ((if l = lp then 1 else -1 : ℝ)) * (if l = lp then 1 else -1) = 1 := by split <;> norm_num
  generalize (if l = lp then 1 else -1 : ℝ) = σ at *
  generalize √(2 * l + 1 : ℝ) = x at *
  generalize √(2 * lp + 1 : ℝ) = y at *
  generalize √(3 / (4 * π)) = k at *
  field_simp
  linear_combination k * cg l (-s) (-b) lp * x * e1 + k * σ * pm a * y * cg lp (m + a) (-a) l * e2 + k * pm a * pm b * y ^ 2 * cg lp (m + a) (-a) l * cg lp (-s + -b) (- -b) l * ss

/-- The coefficients with the highest angular momentum do not vanish. -/
theorem cg_high_ne (l m a : Int) (ha : a = 1 ∨ a = 0 ∨ a = -1) (h1 : -l ≤ m) (h2 : m ≤ l) : cg l m a (l + 1) ≠ 0 := by
  have h := row0 h1 h2 ha
  intro e
  rw [e] at h
  have := nuZ_pos (l + 1) (m + a)
  have k : 0 < √(2 : ℝ) := Real.sqrt_pos.2 (by norm_num)
  nlinarith [mul_pos k this]

theorem gaunt_high_ne (b s l m a : Int) (hb : b = 1 ∨ b = 0 ∨ b = -1) (ha : a = 1 ∨ a = 0 ∨ a = -1) (h1 : -l ≤ m) (h2 : m ≤ l) (h3 : -l ≤ s) (h4 : s ≤ l) : gaunt b s l m a (l + 1) ≠ 0 := by
  have h0 : 0 ≤ l := by omega
  have hl : (0 : ℝ) ≤ l := by exact_mod_cast h0
  unfold gaunt
  refine mul_ne_zero (mul_ne_zero ?_ (cg_high_ne l m a ha h1 h2)) (cg_high_ne l (-s) (-b) (by omega) (by omega) (by omega))
  refine (Real.sqrt_pos.2 ?_).ne'
  have := Real.pi_pos
  push_cast
  positivity

/-! ## The integral -/

/-- The integral of a function of rotors. -/
noncomputable def sphere (F : Quaternion ℝ → ℂ) : ℂ := solid fun θ φ => F (rotor θ φ)

/-- Continuous in the angles. -/
def Cont (F : Quaternion ℝ → ℂ) : Prop := Continuous fun p : ℝ × ℝ => F (rotor p.1 p.2)

theorem inner_cont {F : Quaternion ℝ → ℂ} (hF : Cont F) (θ : ℝ) : Continuous fun φ => F (rotor θ φ) * (Real.sin θ : ℂ) := by
  have hc : Continuous fun φ : ℝ => (θ, φ) := by fun_prop
  have hF' : Continuous fun p : ℝ × ℝ => F (rotor p.1 p.2) := hF
  have h := hF'.comp hc
  simp only [Function.comp_def] at h
  exact h.mul continuous_const

theorem outer_cont {F : Quaternion ℝ → ℂ} (hF : Cont F) : Continuous fun θ => ∫ φ in (0 : ℝ)..(2 * π), F (rotor θ φ) * (Real.sin θ : ℂ) := by
  apply intervalIntegral.continuous_parametric_intervalIntegral_of_continuous'
  have hc : Continuous (fun p : ℝ × ℝ => (Real.sin p.1 : ℂ)) := by fun_prop
  exact Continuous.mul hF hc

theorem sphere_add {F G : Quaternion ℝ → ℂ} (hF : Cont F) (hG : Cont G) : sphere (fun R => F R + G R) = sphere F + sphere G := by
  unfold sphere solid
  rw [← intervalIntegral.integral_add (outer_cont hF).continuousOn.intervalIntegrable (outer_cont hG).continuousOn.intervalIntegrable]
  congr 1
  funext θ
  rw [← intervalIntegral.integral_add (inner_cont hF θ).continuousOn.intervalIntegrable (inner_cont hG θ).continuousOn.intervalIntegrable]
  congr 1
  funext φ
  ring

theorem sphere_smul (c : ℂ) (F : Quaternion ℝ → ℂ) : sphere (fun R => c * F R) = c * sphere F := by
  unfold sphere solid
  simp only [mul_assoc, intervalIntegral.integral_const_mul]

theorem sphere_congr {F G : Quaternion ℝ → ℂ} (h : ∀ R, GridMultiply.Spec.Unit R → F R = G R) : sphere F = sphere G := by
  unfold sphere solid
  congr 1
  funext θ
  congr 1
  funext φ
  show F (rotor θ φ) * _ = G (rotor θ φ) * _
  rw [h _ (rotor_unit θ φ)]

theorem sphere_zero : sphere (fun _ => 0) = 0 := by
  unfold sphere solid
  simp

theorem Cont.add {F G : Quaternion ℝ → ℂ} (hF : Cont F) (hG : Cont G) : Cont (fun R => F R + G R) := Continuous.add hF hG
theorem Cont.mul {F G : Quaternion ℝ → ℂ} (hF : Cont F) (hG : Cont G) : Cont (fun R => F R * G R) := Continuous.mul hF hG
theorem Cont.smul {F : Quaternion ℝ → ℂ} (c : ℂ) (hF : Cont F) : Cont (fun R => c * F R) := Continuous.mul continuous_const hF
theorem Cont.conj {F : Quaternion ℝ → ℂ} (hF : Cont F) : Cont (fun R => conj (F R)) := Complex.continuous_conj.comp hF
theorem Cont.sum {ι : Type} {S : Finset ι} {F : ι → Quaternion ℝ → ℂ} (hF : ∀ i ∈ S, Cont (F i)) : Cont (fun R => ∑ i ∈ S, F i R) := continuous_finsetSum S hF

theorem sphere_sum {ι : Type} [DecidableEq ι] (S : Finset ι) (F : ι → Quaternion ℝ → ℂ) (hF : ∀ i ∈ S, Cont (F i)) : sphere (fun R => ∑ i ∈ S, F i R) = ∑ i ∈ S, sphere (F i) := by
  induction S using Finset.induction with
  | empty => simpa using sphere_zero
  | insert i S hi ih =>
    simp only [Finset.sum_insert hi]
    rw [sphere_add (hF i (Finset.mem_insert_self i S)) (Cont.sum fun j hj => hF j (Finset.mem_insert_of_mem hj)), ih fun j hj => hF j (Finset.mem_insert_of_mem hj)]

theorem coef_cont (n i j : ℕ) : Continuous fun θ : ℝ => coef n (Real.cos (θ / 2) : ℝ) (-(Real.sin (θ / 2) : ℝ)) (Real.sin (θ / 2) : ℝ) (Real.cos (θ / 2) : ℝ) i j := by
  unfold coef
  refine continuous_finsetSum _ fun ρ _ => ?_
  fun_prop

theorem Y_cont (s ell m : Int) (h1 : -ell ≤ m) (h2 : m ≤ ell) : Cont (Y s ell m) := by
  unfold Cont
  by_cases h : |s| ≤ ell
  · simp only [Y_rotor h h1 h2]
    have := coef_cont (2 * ell).toNat (ell + m).toNat (ell + -s).toNat
    have := this.comp (continuous_fst (X := ℝ) (Y := ℝ))
    simp only [Function.comp_def] at this
    fun_prop
  · simp only [Y, if_neg h]
    exact continuous_const

/-! ## The integral of a harmonic with spin weight 0 -/

/-- `∫ cos^(2a)(θ/2) sin^(2b)(θ/2) sin θ dθ` -/
noncomputable def J (a b : ℕ) : ℝ := ∫ θ in (0 : ℝ)..π, (Real.cos (θ / 2)) ^ (2 * a) * (Real.sin (θ / 2)) ^ (2 * b) * Real.sin θ

theorem J_int (a b : ℕ) : IntervalIntegrable (fun θ : ℝ => (Real.cos (θ / 2)) ^ (2 * a) * (Real.sin (θ / 2)) ^ (2 * b) * Real.sin θ) MeasureTheory.volume 0 π := by
  apply Continuous.intervalIntegrable
  fun_prop

theorem sin_half (θ : ℝ) : Real.sin θ = 2 * Real.sin (θ / 2) * Real.cos (θ / 2) := by
  rw [← Real.sin_two_mul]
  congr 1
  ring

theorem J_split (a b : ℕ) : J (a + 1) b + J a (b + 1) = J a b := by
  unfold J
  rw [← intervalIntegral.integral_add (J_int _ _) (J_int _ _)]
  congr 1
  funext θ
  have := Real.sin_sq_add_cos_sq (θ / 2)
  linear_combination (Real.cos (θ / 2)) ^ (2 * a) * (Real.sin (θ / 2)) ^ (2 * b) * Real.sin θ * this

theorem J_parts (a b : ℕ) : (b + 1 : ℝ) * J (a + 1) b = (a + 1) * J a (b + 1) := by
  have hd : ∀ θ : ℝ, HasDerivAt (fun θ : ℝ => (Real.cos (θ / 2)) ^ (2 * (a + 1)) * (Real.sin (θ / 2)) ^ (2 * (b + 1)))
      (1 / 2 * ((b + 1) * ((Real.cos (θ / 2)) ^ (2 * (a + 1)) * (Real.sin (θ / 2)) ^ (2 * b) * Real.sin θ) - (a + 1) * ((Real.cos (θ / 2)) ^ (2 * a) * (Real.sin (θ / 2)) ^ (2 * (b + 1)) * Real.sin θ))) θ := by
    intro θ
    have h1 : HasDerivAt (fun θ : ℝ => θ / 2) (1 / 2) θ := (hasDerivAt_id θ).div_const 2
    have h2 := (h1.cos).pow (2 * (a + 1))
    have h3 := (h1.sin).pow (2 * (b + 1))
    refine (h2.mul h3).congr_deriv ?_
    rw [sin_half θ]
    simp only [Pi.pow_apply]
    rw [show 2 * (a + 1) - 1 = 2 * a + 1 by omega, show 2 * (b + 1) - 1 = 2 * b + 1 by omega]
    push_cast
    ring
  have hi := intervalIntegral.integral_eq_sub_of_hasDerivAt (fun θ _ => hd θ) (a := 0) (b := π) (by
    apply Continuous.intervalIntegrable
    fun_prop)
  rw [intervalIntegral.integral_const_mul, intervalIntegral.integral_sub ((J_int _ _).const_mul _) ((J_int _ _).const_mul _), intervalIntegral.integral_const_mul, intervalIntegral.integral_const_mul] at hi
  have e : (Real.cos (π / 2)) ^ (2 * (a + 1)) = 0 := by rw [Real.cos_pi_div_two]; simp
  have e' : (Real.sin ((0 : ℝ) / 2)) ^ (2 * (b + 1)) = 0 := by simp
  rw [e, e'] at hi
  unfold J
  linarith

theorem J_eq (a b : ℕ) : J a b * ((a + b + 1).factorial : ℝ) = 2 * (a.factorial : ℝ) * b.factorial := by
  induction a generalizing b with
  | zero =>
    induction b with
    | zero =>
      unfold J
      simp [integral_sin]
      norm_num
    | succ b ih =>
      have e1 := J_split 0 b
      have e2 := J_parts 0 b
      have e3 : J 0 (b + 1) * (b + 2) = (b + 1) * J 0 b := by push_cast at e2; linear_combination -e2 + (b + 1 : ℝ) * e1
      rw [show 0 + (b + 1) + 1 = (0 + b + 1) + 1 by ring, Nat.factorial_succ, Nat.factorial_succ b]
      push_cast at e3 ih ⊢
      linear_combination ((0 + b + 1).factorial : ℝ) * e3 + (b + 1 : ℝ) * ih
  | succ a ih =>
    have e1 := J_split a b
    have e2 := J_parts a b
    have e3 : J (a + 1) b * (a + b + 2) = (a + 1) * J a b := by linear_combination e2 + (a + 1 : ℝ) * e1
    rw [show a + 1 + b + 1 = (a + b + 1) + 1 by ring, Nat.factorial_succ, Nat.factorial_succ a]
    have := ih b
    push_cast at e3 this ⊢
    linear_combination ((a + b + 1).factorial : ℝ) * e3 + (a + 1 : ℝ) * this

/-- The polar integral of the harmonic with `m = 0`. -/
theorem polar (l : ℕ) : ∫ θ in (0 : ℝ)..π, coef (2 * l) (Real.cos (θ / 2) : ℝ) (-(Real.sin (θ / 2) : ℝ)) (Real.sin (θ / 2) : ℝ) (Real.cos (θ / 2) : ℝ) l l * (Real.sin θ : ℂ) = if l = 0 then 2 else 0 := by
  have e : ∀ θ : ℝ, coef (2 * l) (Real.cos (θ / 2) : ℝ) (-(Real.sin (θ / 2) : ℝ)) (Real.sin (θ / 2) : ℝ) (Real.cos (θ / 2) : ℝ) l l * (Real.sin θ : ℂ) =
      ((∑ ρ ∈ Finset.range (l + 1), (-1) ^ ρ * (l.choose ρ : ℝ) ^ 2 * ((Real.cos (θ / 2)) ^ (2 * (l - ρ)) * (Real.sin (θ / 2)) ^ (2 * ρ) * Real.sin θ) : ℝ) : ℂ) := by
    intro θ
    unfold coef
    rw [Finset.filter_true_of_mem (fun ρ hρ => by have := Finset.mem_range.1 hρ; omega), Finset.sum_mul]
    push_cast
    refine Finset.sum_congr rfl fun ρ hρ => ?_
    have hρ' : ρ ≤ l := by have := Finset.mem_range.1 hρ; omega
    rw [show 2 * l - l = l by omega, show l + ρ - l = ρ by omega, Nat.choose_symm hρ', neg_pow]
    ring
  simp only [e]
  rw [intervalIntegral.integral_ofReal, intervalIntegral.integral_finsetSum (fun ρ _ => ((J_int _ _).const_mul _))]
  simp only [intervalIntegral.integral_const_mul]
  have e2 : ∀ ρ ∈ Finset.range (l + 1), (-1 : ℝ) ^ ρ * (l.choose ρ : ℝ) ^ 2 * J (l - ρ) ρ = 2 / (l + 1) * ((-1) ^ ρ * (l.choose ρ : ℝ)) := by
    intro ρ hρ
    have hρ' : ρ ≤ l := by have := Finset.mem_range.1 hρ; omega
    have j := J_eq (l - ρ) ρ
    have c := Nat.choose_mul_factorial_mul_factorial hρ'
    have c' : (l.choose ρ : ℝ) * ρ.factorial * (l - ρ).factorial = l.factorial := by exact_mod_cast c
    rw [show l - ρ + ρ + 1 = l + 1 by omega, Nat.factorial_succ] at j
    push_cast at j
    have p : (l.factorial : ℝ) ≠ 0 := by positivity
    have p2 : (l + 1 : ℝ) ≠ 0 := by positivity
    field_simp
    refine mul_right_cancel₀ p ?_
    linear_combination (l.choose ρ : ℝ) ^ 2 * j + 2 * (l.choose ρ : ℝ) * c'
  have e3 : ∑ ρ ∈ Finset.range (l + 1), (-1 : ℝ) ^ ρ * (l.choose ρ : ℝ) = if l = 0 then 1 else 0 := by
    have := Int.alternating_sum_range_choose (n := l)
    have := congrArg (fun x : ℤ => (x : ℝ)) this
    push_cast at this
    rw [this]
  show ((∑ ρ ∈ Finset.range (l + 1), (-1 : ℝ) ^ ρ * (l.choose ρ : ℝ) ^ 2 * J (l - ρ) ρ : ℝ) : ℂ) = _
  rw [Finset.sum_congr rfl e2, ← Finset.mul_sum, e3]
  split
  · subst_vars; simp
  · simp

theorem azimuth (m : Int) : ∫ φ in (0 : ℝ)..(2 * π), Complex.exp (m * φ * Complex.I) = if m = 0 then 2 * π else 0 := by
  split
  · subst_vars; simp
  · rename_i h
    have hc : (m * Complex.I : ℂ) ≠ 0 := mul_ne_zero (by exact_mod_cast h) Complex.I_ne_zero
    have e : ∀ φ : ℝ, Complex.exp (m * φ * Complex.I) = Complex.exp ((m * Complex.I) * φ) := fun φ => by congr 1; ring
    simp only [e]
    rw [integral_exp_mul_complex hc]
    have : Complex.exp (m * Complex.I * ((2 * π : ℝ) : ℂ)) = 1 := by
      rw [Complex.exp_eq_one_iff]
      exact ⟨m, by push_cast; ring⟩
    rw [this]
    simp

/-- Only the lowest harmonic has an integral. -/
theorem sphere_Y (l m : Int) (h0 : 0 ≤ l) (h1 : -l ≤ m) (h2 : m ≤ l) : sphere (Y 0 l m) = if l = 0 then (√(4 * π) : ℝ) else 0 := by
  unfold sphere solid
  have hl : |(0 : Int)| ≤ l := by simpa using h0
  simp only [Y_rotor hl h1 h2]
  have e : ∀ θ φ : ℝ, fac 0 l m * Complex.exp (m * φ * Complex.I) * coef (2 * l).toNat (Real.cos (θ / 2) : ℝ) (-(Real.sin (θ / 2) : ℝ)) (Real.sin (θ / 2) : ℝ) (Real.cos (θ / 2) : ℝ) (l + m).toNat (l + -0).toNat * (Real.sin θ : ℂ) =
      (coef (2 * l).toNat (Real.cos (θ / 2) : ℝ) (-(Real.sin (θ / 2) : ℝ)) (Real.sin (θ / 2) : ℝ) (Real.cos (θ / 2) : ℝ) (l + m).toNat (l + -0).toNat * (Real.sin θ : ℂ) * fac 0 l m) * Complex.exp (m * φ * Complex.I) := fun θ φ => by ring
  simp only [e, intervalIntegral.integral_const_mul, intervalIntegral.integral_mul_const, azimuth]
  by_cases hm : m = 0
  · subst hm
    obtain ⟨n, rfl⟩ := Int.eq_ofNat_of_zero_le h0
    rw [show ((n : Int) + 0).toNat = n by omega, show ((n : Int) + -0).toNat = n by omega, show (2 * (n : Int)).toNat = 2 * n by omega, polar]
    by_cases hn : n = 0
    · subst hn
      simp [fac, nu]
      have e1 : √π ≠ 0 := (Real.sqrt_pos.2 Real.pi_pos).ne'
      have e2 : ((√π : ℝ) : ℂ) * (√π : ℝ) = π := by exact_mod_cast Real.mul_self_sqrt Real.pi_pos.le
      have e3 : √(4 : ℝ) = 2 := by rw [show (4 : ℝ) = 2 * 2 by norm_num]; exact Real.sqrt_mul_self (by norm_num)
      have e4 : ((√π : ℝ) : ℂ) ≠ 0 := by exact_mod_cast e1
      rw [← e2]
      rw [e3]
      field_simp
      push_cast
      norm_num
    · have hn' : ¬ ((n : Int) = 0) := by exact_mod_cast hn
      rw [if_neg hn, if_neg hn']
      simp
  · have hl' : ¬ (l = 0) := fun e => hm (by omega)
    rw [if_neg hm, if_neg hl']
    simp

/-! ## Orthonormality -/

noncomputable def G (s l m l' m' : Int) : ℂ := sphere fun R => conj (Y s l m R) * Y s l' m' R

theorem gaunt_zero {b s l m a lp : Int} (h : ¬ (-lp ≤ m + a ∧ m + a ≤ lp)) : gaunt b s l m a lp = 0 := by
  unfold gaunt
  rw [cg_zero' h]
  ring

theorem gaunt_zero_spin {b s l m a lp : Int} (h : ¬ (-lp ≤ s + b ∧ s + b ≤ lp)) : gaunt b s l m a lp = 0 := by
  unfold gaunt
  rw [cg_zero' (m := -s) (by omega)]
  ring

theorem pm_conj {a b : Int} (R : Quaternion ℝ) (ha : a = 1 ∨ a = 0 ∨ a = -1) (hb : b = 1 ∨ b = 0 ∨ b = -1) : conj (Y b 1 a R) = ((pm a * pm b : ℝ) : ℂ) * Y (-b) 1 (-a) R := by
  rw [Y_conj b 1 a R (by rw [abs_le]; omega)]
  congr 1
  rcases ha with rfl | rfl | rfl <;> rcases hb with rfl | rfl | rfl <;> simp [pm]

theorem Y_cont' {c : ℂ} {s l m : Int} (h : ¬ (-l ≤ m ∧ m ≤ l) → c = 0) : Cont fun R => c * Y s l m R := by
  by_cases hm : -l ≤ m ∧ m ≤ l
  · exact Cont.smul c (Y_cont s l m hm.1 hm.2)
  · rw [h hm]
    simp only [zero_mul]
    exact continuous_const

/-- Multiplication on the left or on the right. -/
theorem G_rel {s l m l' m' a b : Int} (h0 : 0 ≤ l) (h1 : -l ≤ m) (h2 : m ≤ l) (h0' : 0 ≤ l') (h1' : -l' ≤ m') (h2' : m' ≤ l') (ha : a = 1 ∨ a = 0 ∨ a = -1) (hb : b = 1 ∨ b = 0 ∨ b = -1) :
    (gaunt b s l m a (l + 1) : ℝ) * G (s + b) (l + 1) (m + a) l' m' + (gaunt b s l m a l : ℝ) * G (s + b) l (m + a) l' m' + (gaunt b s l m a (l - 1) : ℝ) * G (s + b) (l - 1) (m + a) l' m' =
      ((pm a * pm b : ℝ) : ℂ) * ((gaunt (-b) (s + b) l' m' (-a) (l' + 1) : ℝ) * G s l m (l' + 1) (m' + -a) + (gaunt (-b) (s + b) l' m' (-a) l' : ℝ) * G s l m l' (m' + -a) +
        (gaunt (-b) (s + b) l' m' (-a) (l' - 1) : ℝ) * G s l m (l' - 1) (m' + -a)) := by
  have left : ∀ lp, Cont fun R => (gaunt b s l m a lp : ℂ) * (conj (Y (s + b) lp (m + a) R) * Y (s + b) l' m' R) := fun lp => by
    have c := Cont.mul (Cont.conj (Y_cont' (c := (gaunt b s l m a lp : ℂ)) (s := s + b) (l := lp) (m := m + a) fun h => by rw [gaunt_zero h]; simp)) (Y_cont (s + b) l' m' h1' h2')
    simp only [map_mul, Complex.conj_ofReal, mul_assoc] at c
    exact c
  have right : ∀ lp, Cont fun R => (gaunt (-b) (s + b) l' m' (-a) lp : ℂ) * (conj (Y s l m R) * Y s lp (m' + -a) R) := fun lp => by
    have c := Cont.mul (Cont.conj (Y_cont s l m h1 h2)) (Y_cont' (c := (gaunt (-b) (s + b) l' m' (-a) lp : ℂ)) (s := s) (l := lp) (m := m' + -a) fun h => by rw [gaunt_zero h]; simp)
    convert c using 2
    ring
  unfold G
  rw [← sphere_smul, ← sphere_smul, ← sphere_smul, ← sphere_smul, ← sphere_smul, ← sphere_smul, ← sphere_add (left _) (left _), ← sphere_add (Cont.add (left _) (left _)) (left _),
    ← sphere_add (right _) (right _), ← sphere_add (Cont.add (right _) (right _)) (right _), ← sphere_smul]
  refine sphere_congr fun R hR => ?_
  have e1 := congrArg conj (Y_series hR (s := s) h0 h1 h2 ha hb)
  have e2 := Y_series hR (s := s + b) (a := -a) (b := -b) h0' h1' h2' (by omega) (by omega)
  rw [show s + b + -b = s by ring] at e2
  have e3 := pm_conj R ha hb
  simp only [map_mul, map_add, Complex.conj_ofReal] at e1
  rw [e3] at e1
  linear_combination (-Y (s + b) l' m' R) * e1 + ((pm a * pm b : ℝ) : ℂ) * conj (Y s l m R) * e2

theorem G_zero_left {s l m l' m' : Int} (h : ¬ |s| ≤ l) : G s l m l' m' = 0 := by
  unfold G
  have : (fun R => conj (Y s l m R) * Y s l' m' R) = fun _ => 0 := by
    funext R
    unfold Y
    rw [if_neg h]
    simp
  rw [this, sphere_zero]

theorem Y000 (R : Quaternion ℝ) : Y 0 0 0 R = ((1 / √(4 * π) : ℝ) : ℂ) := by
  have e0 : Dlm 0 R 0 0 = 1 := by simp [Dlm, D, coef, nu]
  unfold Y
  rw [if_pos (by simp), neg_zero, e0]
  have : √((2 * ((0 : Int) : ℝ) + 1) / (4 * π)) = 1 / √(4 * π) := by
    rw [Real.sqrt_div (by norm_num)]
    simp
  rw [this]
  simp

theorem ortho_nat (n : ℕ) : ∀ s m l' m' : Int, -(n : Int) ≤ m → m ≤ n → 0 ≤ l' → -l' ≤ m' → m' ≤ l' → G s n m l' m' = if (n : Int) = l' ∧ m = m' ∧ |s| ≤ n then 1 else 0 := by
  induction n using Nat.strong_induction_on with
  | _ n ih =>
    intro S M l' m' hM1 hM2 h0' h1' h2'
    by_cases hS : |S| ≤ (n : Int)
    swap
    · rw [G_zero_left hS, if_neg (by tauto)]
    obtain ⟨hS1, hS2⟩ := abs_le.1 hS
    cases n with
    | zero =>
      have hm : M = 0 := by push_cast at hM1 hM2; omega
      have hs : S = 0 := by push_cast at hS1 hS2; omega
      subst hm hs
      unfold G
      simp only [Nat.cast_zero, Y000, Complex.conj_ofReal]
      rw [sphere_smul, sphere_Y l' m' h0' h1' h2']
      have p : 0 < √(4 * π) := Real.sqrt_pos.2 (by positivity)
      by_cases hl : l' = 0
      · have : m' = 0 := by omega
        subst hl this
        rw [if_pos rfl, if_pos (by simp)]
        push_cast
        have : ((√(4 * π) : ℝ) : ℂ) ≠ 0 := by exact_mod_cast p.ne'
        field_simp
      · rw [if_neg hl, if_neg (fun h => hl h.1.symm)]
        simp
    | succ n =>
      push_cast at hM1 hM2 hS1 hS2 hS ⊢
      obtain ⟨b, s, hb, hsb, hs1, hs2⟩ : ∃ b s : Int, (b = 1 ∨ b = 0 ∨ b = -1) ∧ S = s + b ∧ -(n : Int) ≤ s ∧ s ≤ n := by
        rcases lt_trichotomy S 0 with h | h | h
        · exact ⟨-1, S + 1, by simp, by ring, by omega, by omega⟩
        · exact ⟨0, 0, by simp, by omega, by omega, by omega⟩
        · exact ⟨1, S - 1, by simp, by ring, by omega, by omega⟩
      obtain ⟨a, m, ha, hma, hm1, hm2⟩ : ∃ a m : Int, (a = 1 ∨ a = 0 ∨ a = -1) ∧ M = m + a ∧ -(n : Int) ≤ m ∧ m ≤ n := by
        rcases lt_trichotomy M 0 with h | h | h
        · exact ⟨-1, M + 1, by simp, by ring, by omega, by omega⟩
        · exact ⟨0, 0, by simp, by omega, by omega, by omega⟩
        · exact ⟨1, M - 1, by simp, by ring, by omega, by omega⟩
      subst hsb hma
      have rel := G_rel (s := s) (l := n) (m := m) (l' := l') (m' := m') (a := a) (b := b) (by omega) hm1 hm2 h0' h1' h2' ha hb
      have hL : ∀ lp : Int, lp ≤ n → (gaunt b s n m a lp : ℂ) * G (s + b) lp (m + a) l' m' = if lp = l' ∧ m + a = m' then (gaunt b s n m a l' : ℂ) else 0 := by
        intro lp hlp
        by_cases hr : -lp ≤ m + a ∧ m + a ≤ lp
        swap
        · rw [gaunt_zero hr]
          split
          · rename_i h
            rw [← h.1, gaunt_zero hr]; simp
          · simp
        by_cases hq : -lp ≤ s + b ∧ s + b ≤ lp
        swap
        · rw [gaunt_zero_spin hq]
          split
          · rename_i h
            rw [← h.1, gaunt_zero_spin hq]; simp
          · simp
        obtain ⟨k, rfl⟩ := Int.eq_ofNat_of_zero_le (show 0 ≤ lp by omega)
        rw [ih k (by omega) (s + b) (m + a) l' m' hr.1 hr.2 h0' h1' h2']
        by_cases h : (k : Int) = l' ∧ m + a = m'
        · rw [if_pos h, if_pos ⟨h.1, h.2, abs_le.2 hq⟩, ← h.1, mul_one]
        · rw [if_neg h, if_neg (fun h' => h ⟨h'.1, h'.2.1⟩), mul_zero]
      have hR : ∀ lp : Int, (gaunt (-b) (s + b) l' m' (-a) lp : ℂ) * G s n m lp (m' + -a) = if (n : Int) = lp ∧ m = m' + -a then (gaunt (-b) (s + b) l' m' (-a) n : ℂ) else 0 := by
        intro lp
        by_cases hr : -lp ≤ m' + -a ∧ m' + -a ≤ lp
        swap
        · rw [gaunt_zero hr]
          split
          · rename_i h
            rw [h.1, gaunt_zero hr]; simp
          · simp
        rw [ih n (by omega) s m lp (m' + -a) hm1 hm2 (by omega) hr.1 hr.2]
        by_cases h : (n : Int) = lp ∧ m = m' + -a
        · rw [if_pos h, if_pos ⟨h.1, h.2, abs_le.2 ⟨hs1, hs2⟩⟩, h.1, mul_one]
        · rw [if_neg h, if_neg (fun h' => h ⟨h'.1, h'.2.1⟩), mul_zero]
      rw [hL n le_rfl, hL (n - 1) (by omega), hR, hR, hR] at rel
      have sym := congrArg (fun x : ℝ => (x : ℂ)) (gaunt_symm b s n m a l' hb ha (by omega) h0')
      have ne : ((gaunt b s n m a (n + 1) : ℝ) : ℂ) ≠ 0 := by exact_mod_cast gaunt_high_ne b s n m a hb ha hm1 hm2 hs1 hs2
      refine mul_left_cancel₀ ne ?_
      by_cases hmm : m + a = m'
      · have hmm' : m = m' + -a := by omega
        subst hmm
        have sym' : ((gaunt b s n m a l' : ℝ) : ℂ) = ((pm a * pm b : ℝ) : ℂ) * (gaunt (-b) (s + b) l' (m + a) (-a) n : ℂ) := by rw [sym]; push_cast; ring
        simp only [show m + a + -a = m by ring, and_true] at rel
        by_cases c1 : (n : Int) + 1 = l'
        · subst c1
          rw [if_pos ⟨rfl, rfl, hS⟩, mul_one]
          rw [if_neg (by omega), if_neg (by omega), if_neg (by omega), if_neg (by omega), if_pos (by omega), add_zero, add_zero, zero_add, zero_add, ← sym'] at rel
          exact rel
        · rw [if_neg (fun h => c1 h.1), mul_zero]
          by_cases c2 : (n : Int) = l'
          · subst c2
            rw [if_pos rfl, if_neg (by omega), if_neg (by omega), if_pos rfl, if_neg (by omega), zero_add, add_zero, add_zero, ← sym'] at rel
            linear_combination rel
          · by_cases c3 : (n : Int) - 1 = l'
            · rw [if_neg c2, if_pos c3, if_pos (by omega), if_neg c2, if_neg (by omega), add_zero, add_zero, add_zero, ← sym'] at rel
              linear_combination rel
            · rw [if_neg c2, if_neg c3, if_neg (by omega), if_neg c2, if_neg (by omega)] at rel
              linear_combination rel
      · rw [if_neg (fun h => hmm h.2.1), mul_zero]
        rw [if_neg (fun h => hmm h.2), if_neg (fun h => hmm h.2), if_neg (by omega), if_neg (by omega), if_neg (by omega)] at rel
        linear_combination rel

/-- The harmonics of one spin weight are orthonormal. -/
theorem ortho (s l m l' m' : Int) (h0 : |s| ≤ l) (h1 : -l ≤ m) (h2 : m ≤ l) (h1' : -l' ≤ m') (h2' : m' ≤ l') :
    sphere (fun R => conj (Y s l m R) * Y s l' m' R) = if l = l' ∧ m = m' then 1 else 0 := by
  have hs := abs_nonneg s
  obtain ⟨k, rfl⟩ := Int.eq_ofNat_of_zero_le (show 0 ≤ l by omega)
  have := ortho_nat k s m l' m' h1 h2 (by omega) h1' h2'
  unfold G at this
  rw [this]
  by_cases h : (k : Int) = l' ∧ m = m'
  · rw [if_pos h, if_pos ⟨h.1, h.2, h0⟩]
  · rw [if_neg h, if_neg (fun h' => h ⟨h'.1, h'.2.1⟩)]

/-- With a harmonic of angular momentum 1 in between. -/
theorem triple (s j n b s' l m a : Int) (hs : s' + b = s) (hn1 : -j ≤ n) (hn2 : n ≤ j) (hl : 0 ≤ l) (hm1 : -l ≤ m) (hm2 : m ≤ l) (ha : a = 1 ∨ a = 0 ∨ a = -1) (hb : b = 1 ∨ b = 0 ∨ b = -1) :
    sphere (fun R => conj (Y s j n R) * (Y b 1 a R * Y s' l m R)) = if n = m + a then (gaunt b s' l m a j : ℂ) else 0 := by
  subst hs
  have c : ∀ lp, Cont fun R => (gaunt b s' l m a lp : ℂ) * (conj (Y (s' + b) j n R) * Y (s' + b) lp (m + a) R) := fun lp => by
    have c := Cont.mul (Cont.conj (Y_cont (s' + b) j n hn1 hn2)) (Y_cont' (c := (gaunt b s' l m a lp : ℂ)) (s := s' + b) (l := lp) (m := m + a) fun h => by rw [gaunt_zero h]; simp)
    convert c using 2
    ring
  have e : sphere (fun R => conj (Y (s' + b) j n R) * (Y b 1 a R * Y s' l m R)) =
      (gaunt b s' l m a (l + 1) : ℂ) * G (s' + b) j n (l + 1) (m + a) + (gaunt b s' l m a l : ℂ) * G (s' + b) j n l (m + a) + (gaunt b s' l m a (l - 1) : ℂ) * G (s' + b) j n (l - 1) (m + a) := by
    unfold G
    rw [← sphere_smul, ← sphere_smul, ← sphere_smul, ← sphere_add (c _) (c _), ← sphere_add (Cont.add (c _) (c _)) (c _)]
    refine sphere_congr fun R hR => ?_
    rw [Y_series hR hl hm1 hm2 ha hb]
    ring
  have t : ∀ lp : Int, (gaunt b s' l m a lp : ℂ) * G (s' + b) j n lp (m + a) = if j = lp ∧ n = m + a then (gaunt b s' l m a j : ℂ) else 0 := by
    intro lp
    by_cases hr : -lp ≤ m + a ∧ m + a ≤ lp
    swap
    · rw [gaunt_zero hr]
      split
      · rename_i h
        rw [h.1, gaunt_zero hr]; simp
      · simp
    by_cases hq : -j ≤ s' + b ∧ s' + b ≤ j
    swap
    · rw [G_zero_left (by rw [abs_le]; exact hq)]
      split
      · rw [gaunt_zero_spin hq]; simp
      · simp
    have o := ortho (s' + b) j n lp (m + a) (abs_le.2 hq) hn1 hn2 hr.1 hr.2
    unfold G
    rw [o]
    by_cases h : j = lp ∧ n = m + a
    · rw [if_pos h, if_pos h, h.1, mul_one]
    · rw [if_neg h, if_neg h, mul_zero]
  rw [e, t, t, t]
  by_cases hnm : n = m + a
  swap
  · rw [if_neg (fun h => hnm h.2), if_neg (fun h => hnm h.2), if_neg (fun h => hnm h.2), if_neg hnm]; ring
  rw [if_pos hnm]
  by_cases c1 : j = l + 1
  · rw [if_pos ⟨c1, hnm⟩, if_neg (by omega), if_neg (by omega)]; ring
  by_cases c2 : j = l
  · rw [if_neg (by omega), if_pos ⟨c2, hnm⟩, if_neg (by omega)]; ring
  by_cases c3 : j = l - 1
  · rw [if_neg (by omega), if_neg (by omega), if_pos ⟨c3, hnm⟩]; ring
  rw [if_neg (by omega), if_neg (by omega), if_neg (by omega)]
  have : gaunt b s' l m a j = 0 := by
    unfold gaunt
    rw [cg_far (by omega)]
    ring
  rw [this]
  simp

/-! ## Fields -/

/-- A field as a function of rotors. -/
noncomputable def fieldR (s a b : Int) (f : Int → Int → ℂ) (R : Quaternion ℝ) : ℂ := ∑ ell ∈ Finset.Icc a b, ∑ m ∈ Finset.Icc (-ell) ell, f ell m * Y s ell m R

theorem fieldR_cont (s a b : Int) (f : Int → Int → ℂ) : Cont (fieldR s a b f) := by
  refine Cont.sum fun ell _ => Cont.sum fun m hm => ?_
  rw [Finset.mem_Icc] at hm
  exact Cont.smul _ (Y_cont s ell m hm.1 hm.2)

/-- Expectation values are integrals. -/
theorem field_bracket (s s' a b : Int) (f g : Int → Int → ℂ) (K : Quaternion ℝ → ℂ) (hK : Cont K) (M : Int → Int → Int → Int → ℂ)
    (hM : ∀ j n l m, a ≤ j → j ≤ b → -j ≤ n → n ≤ j → a ≤ l → l ≤ b → -l ≤ m → m ≤ l → sphere (fun R => conj (Y s j n R) * (K R * Y s' l m R)) = M j n l m) :
    sphere (fun R => conj (fieldR s a b f R) * (K R * fieldR s' a b g R)) = Spec.Flux.bracket a b f M g := by
  have e : ∀ R, conj (fieldR s a b f R) * (K R * fieldR s' a b g R) =
      ∑ j ∈ Finset.Icc a b, ∑ n ∈ Finset.Icc (-j) j, ∑ l ∈ Finset.Icc a b, ∑ m ∈ Finset.Icc (-l) l, (conj (f j n) * g l m) * (conj (Y s j n R) * (K R * Y s' l m R)) := by
    intro R
    unfold fieldR
    rw [map_sum, Finset.sum_mul]
    refine Finset.sum_congr rfl fun j _ => ?_
    rw [map_sum, Finset.sum_mul]
    refine Finset.sum_congr rfl fun n _ => ?_
    rw [Finset.mul_sum, Finset.mul_sum]
    refine Finset.sum_congr rfl fun l _ => ?_
    rw [Finset.mul_sum, Finset.mul_sum]
    refine Finset.sum_congr rfl fun m _ => ?_
    rw [map_mul]
    ring
  have c : ∀ j n l m, n ∈ Finset.Icc (-j) j → m ∈ Finset.Icc (-l) l → Cont fun R => (conj (f j n) * g l m) * (conj (Y s j n R) * (K R * Y s' l m R)) := by
    intro j n l m hn hm
    rw [Finset.mem_Icc] at hn hm
    exact Cont.smul _ (Cont.mul (Cont.conj (Y_cont s j n hn.1 hn.2)) (Cont.mul hK (Y_cont s' l m hm.1 hm.2)))
  simp only [e]
  unfold Spec.Flux.bracket
  rw [sphere_sum _ _ fun j _ => Cont.sum fun n hn => Cont.sum fun l _ => Cont.sum fun m hm => c j n l m hn hm]
  refine Finset.sum_congr rfl fun j hj => ?_
  rw [sphere_sum _ _ fun n hn => Cont.sum fun l _ => Cont.sum fun m hm => c j n l m hn hm]
  refine Finset.sum_congr rfl fun n hn => ?_
  rw [sphere_sum _ _ fun l _ => Cont.sum fun m hm => c j n l m hn hm]
  refine Finset.sum_congr rfl fun l hl => ?_
  rw [sphere_sum _ _ fun m hm => c j n l m hn hm]
  refine Finset.sum_congr rfl fun m hm => ?_
  rw [sphere_smul]
  rw [Finset.mem_Icc] at hj hn hl hm
  rw [hM j n l m hj.1 hj.2 hn.1 hn.2 hl.1 hl.2 hm.1 hm.2]
  ring

/-! ## The direction -/

theorem coef_one (p q r s : ℂ) : coef 2 p q r s 1 1 = p * s + q * r ∧ coef 2 p q r s 2 1 = 2 * p * q ∧ coef 2 p q r s 0 1 = 2 * r * s := by
  refine ⟨?_, ?_, ?_⟩ <;> simp [coef, Finset.sum_filter, Finset.sum_range_succ, Nat.choose]

theorem cos_half (θ : ℝ) : Real.cos θ = Real.cos (θ / 2) ^ 2 - Real.sin (θ / 2) ^ 2 := by
  rw [← Real.cos_two_mul']
  congr 1
  ring

theorem sqrt_split : √((2 * ((1 : Int) : ℝ) + 1) / (4 * π)) = √(3 / (4 * π)) := by
  congr 2
  norm_num

theorem sqrt_inv : √(4 * π / 3) * √(3 / (4 * π)) = 1 := by
  rw [← Real.sqrt_mul (by positivity)]
  have : 4 * π / 3 * (3 / (4 * π)) = 1 := by
    have := Real.pi_ne_zero
    field_simp
  rw [this, Real.sqrt_one]

/-- `cos θ` -/
theorem Y_cos (θ φ : ℝ) : ((√(4 * π / 3) : ℝ) : ℂ) * Y 0 1 0 (rotor θ φ) = (Real.cos θ : ℝ) := by
  rw [Y_rotor (by simp) (by norm_num) (by norm_num)]
  have e := (coef_one ((Real.cos (θ / 2) : ℝ) : ℂ) (-((Real.sin (θ / 2) : ℝ) : ℂ)) (Real.sin (θ / 2) : ℝ) (Real.cos (θ / 2) : ℝ)).1
  show _ * (_ * coef 2 _ _ _ _ 1 1) = _
  rw [e]
  have f : fac 0 1 0 = (√(3 / (4 * π)) : ℝ) := by
    unfold fac
    rw [sqrt_split]
    have : nu (2 * (1 : Int)).toNat ((1 : Int) + -0).toNat / nu (2 * (1 : Int)).toNat ((1 : Int) + 0).toNat = 1 := div_self (nu_pos _ _).ne'
    rw [this]
    simp
  rw [f, cos_half θ]
  have k := congrArg (fun x : ℝ => (x : ℂ)) sqrt_inv
  push_cast at k ⊢
  simp only [zero_mul, Complex.exp_zero, mul_one]
  linear_combination (Complex.cos (θ / 2) ^ 2 - Complex.sin (θ / 2) ^ 2) * k

/-- `sin θ exp(± i φ)` -/
theorem Y_sin (q : Int) (hq : q = 1 ∨ q = -1) (θ φ : ℝ) : ((-q * √(8 * π / 3) : ℝ) : ℂ) * Y 0 1 q (rotor θ φ) = (Real.sin θ : ℝ) * Complex.exp (q * φ * Complex.I) := by
  rw [Y_rotor (by simp) (by omega) (by omega)]
  obtain ⟨-, e1, e2⟩ := coef_one ((Real.cos (θ / 2) : ℝ) : ℂ) (-((Real.sin (θ / 2) : ℝ) : ℂ)) (Real.sin (θ / 2) : ℝ) (Real.cos (θ / 2) : ℝ)
  have f : fac 0 1 q = (√(3 / (4 * π)) / √2 : ℝ) := by
    unfold fac
    rw [sqrt_split]
    have n0 : nu (2 * (1 : Int)).toNat ((1 : Int) + -0).toNat = 1 := one_z
    have n1 : nu (2 * (1 : Int)).toNat ((1 : Int) + q).toNat = √2 := by
      rcases hq with rfl | rfl
      · exact one_p
      · exact one_m
    rw [n0, n1]
    push_cast
    ring
  have r8 : √(8 * π / 3) = √2 * √(4 * π / 3) := by
    rw [← Real.sqrt_mul (by norm_num)]
    congr 1
    ring
  rw [f, sin_half θ, r8]
  have k := congrArg (fun x : ℝ => (x : ℂ)) sqrt_inv
  have k2 : ((√2 : ℝ) : ℂ) ≠ 0 := by exact_mod_cast (Real.sqrt_pos.2 (show (0 : ℝ) < 2 by norm_num)).ne'
  push_cast at k e1 e2 ⊢
  rcases hq with rfl | rfl
  · show _ * (_ * coef 2 _ _ _ _ 2 1) = _
    rw [e1]
    push_cast
    generalize ((√2 : ℝ) : ℂ) = r at *
    field_simp
    linear_combination (Complex.cos (θ / 2) * Complex.sin (θ / 2)) * k
  · show _ * (_ * coef 2 _ _ _ _ 0 1) = _
    rw [e2]
    push_cast
    generalize ((√2 : ℝ) : ℂ) = r at *
    field_simp
    linear_combination (Complex.cos (θ / 2) * Complex.sin (θ / 2)) * k

end Verif.Sphere
