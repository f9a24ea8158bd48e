import Verif.Lemmas.GridMultiply
import Mathlib.Analysis.SpecialFunctions.Complex.Circle

/-!
# A function with modes up to `w` is determined by its values on the grid
-/

namespace Verif.GridMultiply

open Verif Verif.Modes Verif.Superrest Spec Wigner Finset ComplexConjugate Polynomial

theorem coef_scale (n : ℕ) (a p q r s : ℂ) (i : ℕ) (hi : i ≤ n) (j : ℕ) : coef n (a * p) (a * q) (a * r) (a * s) i j = a ^ n * coef n p q r s i j := by
  rw [coef_coeff _ _ _ _ _ _ hi, coef_coeff _ _ _ _ _ _ hi, ← coeff_C_mul]
  congr 1
  have e : ∀ u v : ℂ, (C (a * u) * X + C (a * v) : ℂ[X]) = C a * (C u * X + C v) := fun u v => by rw [C_mul, C_mul]; ring
  rw [e, e, mul_pow, mul_pow]
  obtain ⟨k, rfl⟩ := Nat.exists_eq_add_of_le hi
  rw [Nat.add_sub_cancel_left, C_pow, pow_add]
  ring

/-- `coef` with polynomials in place of the entries of the rotation about y, times powers of `exp(i theta)`. -/
noncomputable def tp (n i j : ℕ) : ℂ[X] :=
  ∑ ρ ∈ (Finset.range (i + 1)).filter (fun ρ => i ≤ j + ρ ∧ j + ρ ≤ n),
    C ((i.choose ρ : ℂ) * ((n - i).choose (n - j - ρ) : ℂ)) * (C (1 / 2) * X + C (1 / 2)) ^ (i - ρ) * (C (Complex.I / 2) * X + C (-Complex.I / 2)) ^ ρ *
      (C (-Complex.I / 2) * X + C (Complex.I / 2)) ^ (j + ρ - i) * (C (1 / 2) * X + C (1 / 2)) ^ (n - j - ρ)

theorem tp_eval (n i j : ℕ) (u : ℂ) : (tp n i j).eval u =
    coef n ((1 / 2) * u + 1 / 2) ((Complex.I / 2) * u + -Complex.I / 2) ((-Complex.I / 2) * u + Complex.I / 2) ((1 / 2) * u + 1 / 2) i j := by
  unfold tp coef
  rw [eval_finsetSum]
  refine sum_congr rfl fun ρ _ => ?_
  simp only [eval_mul, eval_pow, eval_add, eval_C, eval_X]

theorem tp_degree (n i j : ℕ) : (tp n i j).natDegree ≤ n := by
  unfold tp
  refine natDegree_sum_le_of_forall_le _ _ fun ρ hρ => ?_
  rw [mem_filter, mem_range] at hρ
  have l : ∀ (a b : ℂ) (k : ℕ), ((C a * X + C b : ℂ[X]) ^ k).natDegree ≤ k := fun a b k => (natDegree_pow_le).trans (by
    have : (C a * X + C b : ℂ[X]).natDegree ≤ 1 := natDegree_linear_le
    nlinarith)
  refine (natDegree_mul_le.trans (Nat.add_le_add (natDegree_mul_le.trans (Nat.add_le_add (natDegree_mul_le.trans (Nat.add_le_add (natDegree_C_mul_le _ _) le_rfl)) le_rfl)) le_rfl)).trans ?_
  refine (Nat.add_le_add (Nat.add_le_add (Nat.add_le_add (l _ _ _) (l _ _ _)) (l _ _ _)) (l _ _ _)).trans ?_
  omega

theorem tp_zero (n i j : ℕ) (hi : i ≤ n) (hj : j ≤ n) : (tp n i j).eval 0 ≠ 0 := by
  rw [tp_eval]
  have e : coef n ((1 / 2) * 0 + 1 / 2) ((Complex.I / 2) * 0 + -Complex.I / 2) ((-Complex.I / 2) * 0 + Complex.I / 2) ((1 / 2) * 0 + 1 / 2) i j = coef n ((1 / 2) * 1) ((1 / 2) * -Complex.I) ((1 / 2) * Complex.I) ((1 / 2) * 1) i j := by
    congr 1 <;> ring
  rw [e, coef_scale _ _ _ _ _ _ _ hi, coef_coeff _ _ _ _ _ _ hi]
  have f : (C Complex.I * X + C 1 : ℂ[X]) = C Complex.I * (C 1 * X + C (-Complex.I)) := by
    rw [mul_add, ← mul_assoc, ← C_mul, ← C_mul]
    simp
  rw [f, mul_pow, mul_left_comm, ← pow_add, Nat.add_sub_cancel' hi, ← C_pow, coeff_C_mul, C_1, one_mul, coeff_X_add_C_pow]
  have : (n.choose j : ℂ) ≠ 0 := by exact_mod_cast (Nat.choose_pos hj).ne'
  simp [this]

/-- The combination of polynomials that vanishes has no terms. -/
theorem tp_indep (i j : ℕ → ℕ) (v : ℕ → Prop) [DecidablePred v] (hv : ∀ l, v l → i l ≤ 2 * l ∧ j l ≤ 2 * l) (α : ℕ → ℂ) (L : ℕ) :
    (∑ l ∈ range (L + 1), (if v l then C (α l) * tp (2 * l) (i l) (j l) else 0) * X ^ (L - l) = 0) → ∀ l ≤ L, v l → α l = 0 := by
  induction L with
  | zero =>
    intro h l hl hvl
    obtain rfl : l = 0 := by omega
    rw [sum_range_one, if_pos hvl] at h
    have := congrArg (eval 0) h
    simp only [Nat.sub_self, pow_zero, mul_one, eval_mul, eval_C, eval_zero] at this
    exact (mul_eq_zero.mp this).resolve_right (tp_zero _ _ _ (hv 0 hvl).1 (hv 0 hvl).2)
  | succ L ih =>
    intro h
    rw [sum_range_succ, Nat.sub_self, pow_zero, mul_one] at h
    have e : ∑ l ∈ range (L + 1), (if v l then C (α l) * tp (2 * l) (i l) (j l) else 0) * X ^ (L + 1 - l) =
        (∑ l ∈ range (L + 1), (if v l then C (α l) * tp (2 * l) (i l) (j l) else 0) * X ^ (L - l)) * X := by
      rw [sum_mul]
      refine sum_congr rfl fun l hl => ?_
      rw [mem_range] at hl
      rw [show L + 1 - l = L - l + 1 by omega, pow_succ]
      ring
    rw [e] at h
    have top : v (L + 1) → α (L + 1) = 0 := by
      intro hvl
      rw [if_pos hvl] at h
      have := congrArg (eval 0) h
      simp only [eval_add, eval_mul, eval_X, mul_zero, zero_add, eval_C, eval_zero] at this
      exact (mul_eq_zero.mp this).resolve_right (tp_zero _ _ _ (hv _ hvl).1 (hv _ hvl).2)
    have last : (if v (L + 1) then C (α (L + 1)) * tp (2 * (L + 1)) (i (L + 1)) (j (L + 1)) else 0) = 0 := by
      split_ifs with hvl
      · rw [top hvl]; simp
      · rfl
    rw [last, add_zero] at h
    have h' := (mul_eq_zero.mp h).resolve_right X_ne_zero
    intro l hl hvl
    rcases Nat.lt_or_ge l (L + 1) with hl' | hl'
    · exact ih h' l (by omega) hvl
    · obtain rfl : l = L + 1 := by omega
      exact top hvl

/-- Functions of the polar angle. -/
theorem theta_indep (w : ℕ) (hw : 1 ≤ w) (i j : ℕ → ℕ) (v : ℕ → Prop) [DecidablePred v] (hv : ∀ l, v l → i l ≤ 2 * l ∧ j l ≤ 2 * l) (α : ℕ → ℂ)
    (h : ∀ k < 2 * w + 1, ∑ l ∈ range (w + 1), (if v l then α l * coef (2 * l) (Real.cos (Real.pi * k / (2 * w) / 2) : ℝ) (-(Real.sin (Real.pi * k / (2 * w) / 2) : ℝ)) (Real.sin (Real.pi * k / (2 * w) / 2) : ℝ)
      (Real.cos (Real.pi * k / (2 * w) / 2) : ℝ) (i l) (j l) else 0) = 0) : ∀ l ≤ w, v l → α l = 0 := by
  apply tp_indep i j v hv α w
  have hwr : (0 : ℝ) < w := by exact_mod_cast hw
  let u : Fin (2 * w + 1) → ℂ := fun k => Complex.exp ((Real.pi * k / (2 * w) : ℝ) * Complex.I)
  have hu : Function.Injective u := by
    intro a b hab
    have hr : ∀ c : Fin (2 * w + 1), (Real.pi * (c : ℕ) / (2 * w) : ℝ) ∈ Set.Ioc (-Real.pi) Real.pi := by
      intro c
      have hp := Real.pi_pos
      have hc : ((c : ℕ) : ℝ) ≤ 2 * w := by exact_mod_cast (by omega : (c : ℕ) ≤ 2 * w)
      constructor
      · have : (0 : ℝ) ≤ Real.pi * (c : ℕ) / (2 * w) := by positivity
        linarith
      · rw [div_le_iff₀ (by positivity)]
        nlinarith
    have ha := Complex.arg_exp_mul_I (Real.pi * (a : ℕ) / (2 * w))
    have hb := Complex.arg_exp_mul_I (Real.pi * (b : ℕ) / (2 * w))
    rw [(toIocMod_eq_self Real.two_pi_pos).mpr (by have := hr a; constructor <;> linarith [this.1, this.2])] at ha
    rw [(toIocMod_eq_self Real.two_pi_pos).mpr (by have := hr b; constructor <;> linarith [this.1, this.2])] at hb
    have : (Real.pi * (a : ℕ) / (2 * w) : ℝ) = Real.pi * (b : ℕ) / (2 * w) := by
      rw [← ha, ← hb]
      exact congrArg Complex.arg hab
    have hp := Real.pi_pos
    have : ((a : ℕ) : ℝ) = (b : ℕ) := by
      field_simp at this
      exact this
    exact Fin.ext (by exact_mod_cast this)
  apply eq_zero_of_natDegree_lt_card_of_eval_eq_zero _ hu
  · intro k
    have hk := h k k.2
    set θ : ℝ := Real.pi * (k : ℕ) / (2 * w) with hθ
    let z : ℂ := Complex.exp ((θ / 2 : ℝ) * Complex.I)
    have hz : z ≠ 0 := Complex.exp_ne_zero _
    have hzu : u k = z ^ 2 := by
      show Complex.exp _ = Complex.exp _ ^ 2
      rw [← Complex.exp_nat_mul]
      congr 1
      rw [hθ]
      push_cast
      ring
    have hzi : z * Complex.exp (-((θ / 2 : ℝ) * Complex.I)) = 1 := by
      show Complex.exp _ * _ = 1
      rw [← Complex.exp_add, add_neg_cancel, Complex.exp_zero]
    have hc : z * (Real.cos (θ / 2) : ℝ) = (1 / 2) * z ^ 2 + 1 / 2 := by
      rw [Complex.ofReal_cos, Complex.cos]
      have : Complex.exp (-(θ / 2 : ℝ) * Complex.I) = Complex.exp (-((θ / 2 : ℝ) * Complex.I)) := by rw [neg_mul]
      rw [this]
      linear_combination (1 / 2) * hzi
    have hs : z * (Real.sin (θ / 2) : ℝ) = (-Complex.I / 2) * z ^ 2 + Complex.I / 2 := by
      rw [Complex.ofReal_sin, Complex.sin]
      have : Complex.exp (-(θ / 2 : ℝ) * Complex.I) = Complex.exp (-((θ / 2 : ℝ) * Complex.I)) := by rw [neg_mul]
      rw [this]
      linear_combination (Complex.I / 2) * hzi
    rw [eval_finsetSum, hzu]
    have e : ∀ l ∈ range (w + 1), eval (z ^ 2) ((if v l then C (α l) * tp (2 * l) (i l) (j l) else 0) * X ^ (w - l)) =
        z ^ (2 * w) * (if v l then α l * coef (2 * l) (Real.cos (θ / 2) : ℝ) (-(Real.sin (θ / 2) : ℝ)) (Real.sin (θ / 2) : ℝ) (Real.cos (θ / 2) : ℝ) (i l) (j l) else 0) := by
      intro l hl
      rw [mem_range] at hl
      split_ifs with hvl
      · have hsc := coef_scale (2 * l) z (Real.cos (θ / 2) : ℝ) (-(Real.sin (θ / 2) : ℝ)) (Real.sin (θ / 2) : ℝ) (Real.cos (θ / 2) : ℝ) (i l) (hv l hvl).1 (j l)
        simp only [eval_mul, eval_C, eval_pow, eval_X, tp_eval]
        rw [mul_neg, hc, hs] at hsc
        have e2 : (Complex.I / 2) * z ^ 2 + -Complex.I / 2 = -((-Complex.I / 2) * z ^ 2 + Complex.I / 2) := by ring
        rw [e2, hsc, show 2 * w = 2 * l + 2 * (w - l) by omega, pow_add, pow_mul z 2 (w - l)]
        ring
      · simp
    rw [sum_congr rfl e, ← mul_sum, hk, mul_zero]
  · rw [Fintype.card_fin]
    refine Nat.lt_succ_of_le (natDegree_sum_le_of_forall_le _ _ fun l hl => ?_)
    rw [mem_range] at hl
    refine natDegree_mul_le.trans ?_
    rw [natDegree_X_pow]
    split_ifs with hvl
    · have := (natDegree_C_mul_le (α l) (tp (2 * l) (i l) (j l))).trans (tp_degree _ _ _)
      omega
    · rw [natDegree_zero]; omega

/-- Functions of the azimuth. -/
theorem phi_indep (n : ℕ) (g : ℕ → ℂ) (h : ∀ k < n, ∑ μ ∈ range n, g μ * Complex.exp (2 * Real.pi * k / n * μ * Complex.I) = 0) : ∀ μ < n, g μ = 0 := by
  intro μ hμ
  have hn : n ≠ 0 := by omega
  have hp : (∑ μ ∈ range n, C (g μ) * X ^ μ : ℂ[X]) = 0 := by
    have hu : Function.Injective fun k : Fin n => Complex.exp (2 * Real.pi * Complex.I / n) ^ (k : ℕ) := by
      intro a b hab
      exact Fin.ext ((Complex.isPrimitiveRoot_exp n hn).pow_inj a.2 b.2 hab)
    apply eq_zero_of_natDegree_lt_card_of_eval_eq_zero _ hu
    · intro k
      rw [← h k k.2, eval_finsetSum]
      refine sum_congr rfl fun μ _ => ?_
      rw [eval_mul, eval_C, eval_pow, eval_X, ← Complex.exp_nat_mul, ← Complex.exp_nat_mul]
      congr 2
      ring
    · rw [Fintype.card_fin]
      refine lt_of_le_of_lt (natDegree_sum_le_of_forall_le (n := n - 1) _ _ fun l hl => ?_) (by omega)
      rw [mem_range] at hl
      exact (natDegree_C_mul_X_pow_le _ _).trans (by omega)
  have := congrArg (fun P : ℂ[X] => P.coeff μ) hp
  simp only [finsetSum_coeff, coeff_C_mul, coeff_X_pow, mul_ite, mul_one, mul_zero, coeff_zero] at this
  rwa [sum_ite_eq, if_pos (mem_range.mpr hμ)] at this

/-! ## The grid -/

theorem coef_scale2 (n : ℕ) (a b p q r s : ℂ) (i : ℕ) (hi : i ≤ n) (j : ℕ) : coef n (a * p) (a * q) (b * r) (b * s) i j = a ^ i * b ^ (n - i) * coef n p q r s i j := by
  rw [coef_coeff _ _ _ _ _ _ hi, coef_coeff _ _ _ _ _ _ hi, ← coeff_C_mul]
  congr 1
  have e : ∀ t u v : ℂ, (C (t * u) * X + C (t * v) : ℂ[X]) = C t * (C u * X + C v) := fun t u v => by rw [C_mul, C_mul]; ring
  rw [e, e, mul_pow, mul_pow, C_mul, C_pow, C_pow]
  ring

theorem rotor_parts (θ φ : ℝ) : (rotor θ φ).re = Real.cos (φ / 2) * Real.cos (θ / 2) ∧ (rotor θ φ).imI = -(Real.sin (φ / 2) * Real.sin (θ / 2)) ∧
    (rotor θ φ).imJ = Real.cos (φ / 2) * Real.sin (θ / 2) ∧ (rotor θ φ).imK = Real.sin (φ / 2) * Real.cos (θ / 2) := by
  unfold rotor
  refine ⟨?_, ?_, ?_, ?_⟩
  · refine (Quaternion.re_mul _ _).trans ?_
    show (Real.cos (φ / 2) * Real.cos (θ / 2) - 0 * 0 - 0 * Real.sin (θ / 2) - Real.sin (φ / 2) * 0 : ℝ) = _
    ring
  · refine (Quaternion.imI_mul _ _).trans ?_
    show (Real.cos (φ / 2) * 0 + 0 * Real.cos (θ / 2) + 0 * 0 - Real.sin (φ / 2) * Real.sin (θ / 2) : ℝ) = _
    ring
  · refine (Quaternion.imJ_mul _ _).trans ?_
    show (Real.cos (φ / 2) * Real.sin (θ / 2) - 0 * 0 + 0 * Real.cos (θ / 2) + Real.sin (φ / 2) * 0 : ℝ) = _
    ring
  · refine (Quaternion.imK_mul _ _).trans ?_
    show (Real.cos (φ / 2) * 0 + 0 * Real.sin (θ / 2) - 0 * 0 + Real.sin (φ / 2) * Real.cos (θ / 2) : ℝ) = _
    ring

theorem Ra_rotor (θ φ : ℝ) : Ra (rotor θ φ) = Complex.exp ((φ / 2 : ℝ) * Complex.I) * (Real.cos (θ / 2) : ℝ) := by
  rw [Complex.exp_mul_I, ← Complex.ofReal_cos, ← Complex.ofReal_sin]
  obtain ⟨h1, h2, h3, h4⟩ := rotor_parts θ φ
  unfold Ra
  rw [h1, h4]
  apply Complex.ext <;> simp only [Complex.mul_re, Complex.mul_im, Complex.add_re, Complex.add_im, Complex.ofReal_re, Complex.ofReal_im, Complex.I_re, Complex.I_im] <;> ring

theorem Rb_rotor (θ φ : ℝ) : Rb (rotor θ φ) = Complex.exp (-((φ / 2 : ℝ) * Complex.I)) * (Real.sin (θ / 2) : ℝ) := by
  rw [← neg_mul, ← Complex.ofReal_neg, Complex.exp_mul_I, ← Complex.ofReal_cos, ← Complex.ofReal_sin, Real.cos_neg, Real.sin_neg]
  obtain ⟨h1, h2, h3, h4⟩ := rotor_parts θ φ
  unfold Rb
  rw [h2, h3]
  apply Complex.ext <;> simp only [Complex.mul_re, Complex.mul_im, Complex.add_re, Complex.add_im, Complex.ofReal_re, Complex.ofReal_im, Complex.I_re, Complex.I_im] <;> ring

theorem rotor_unit (θ φ : ℝ) : Spec.Unit (rotor θ φ) := by
  obtain ⟨e1, e2, e3, e4⟩ := rotor_parts θ φ
  unfold Spec.Unit
  rw [e1, e2, e3, e4]
  have h1 := Real.sin_sq_add_cos_sq (θ / 2)
  have h2 := Real.sin_sq_add_cos_sq (φ / 2)
  linear_combination (Real.sin (φ / 2) ^ 2 + Real.cos (φ / 2) ^ 2) * h1 + h2

theorem Y_rotor {s ell m : Int} (h : |s| ≤ ell) (h1 : -ell ≤ m) (h2 : m ≤ ell) (θ φ : ℝ) : Y s ell m (rotor θ φ) =
    fac s ell m * Complex.exp (m * φ * Complex.I) *
      coef (2 * ell).toNat (Real.cos (θ / 2) : ℝ) (-(Real.sin (θ / 2) : ℝ)) (Real.sin (θ / 2) : ℝ) (Real.cos (θ / 2) : ℝ) (ell + m).toNat (ell + -s).toNat := by
  have e := YU_eq (m := m) h ⟨rotor θ φ, rotor_unit θ φ⟩
  have e1 : cf (2 * ell).toNat (ell + m).toNat (ell + -s).toNat (toSL ⟨rotor θ φ, rotor_unit θ φ⟩) =
      coef (2 * ell).toNat (Ra (rotor θ φ)) (-conj (Rb (rotor θ φ))) (Rb (rotor θ φ)) (conj (Ra (rotor θ φ))) (ell + m).toNat (ell + -s).toNat := rfl
  rw [e1] at e
  show YU s ell m ⟨rotor θ φ, rotor_unit θ φ⟩ = _
  rw [e, mul_assoc]
  congr 1
  have c1 : conj (Complex.exp ((φ / 2 : ℝ) * Complex.I)) = Complex.exp (-((φ / 2 : ℝ) * Complex.I)) := by
    rw [← Complex.exp_conj, map_mul, Complex.conj_ofReal, Complex.conj_I, mul_neg]
  have c2 : conj (Complex.exp (-((φ / 2 : ℝ) * Complex.I))) = Complex.exp ((φ / 2 : ℝ) * Complex.I) := by
    rw [← c1, Complex.conj_conj]
  rw [Ra_rotor, Rb_rotor, map_mul, map_mul, c1, c2, Complex.conj_ofReal, Complex.conj_ofReal, ← mul_neg, coef_scale2 _ _ _ _ _ _ _ _ (by omega)]
  congr 1
  rw [← Complex.exp_nat_mul, ← Complex.exp_nat_mul, ← Complex.exp_add]
  congr 1
  have a1 : (((ell + m).toNat : ℕ) : ℂ) = ell + m := by
    have : (((ell + m).toNat : ℤ) : ℂ) = ((ell + m : ℤ) : ℂ) := by rw [Int.toNat_of_nonneg (by omega)]
    push_cast at this
    exact this
  have a2 : (((2 * ell).toNat - (ell + m).toNat : ℕ) : ℂ) = ell - m := by
    have : (((2 * ell).toNat - (ell + m).toNat : ℕ) : ℤ) = ell - m := by omega
    exact_mod_cast congrArg (fun x : ℤ => (x : ℂ)) this
  rw [a1, a2]
  push_cast
  ring

theorem sum_Icc_nat (w : ℕ) (f : ℤ → ℂ) : ∑ ell ∈ Icc (0 : ℤ) w, f ell = ∑ l ∈ range (w + 1), f l := by
  symm
  refine sum_nbij (fun l : ℕ => (l : ℤ)) (fun l hl => ?_) (fun a _ b _ h => by simpa using h) (fun b hb => ?_) (fun _ _ => rfl)
  · rw [mem_range] at hl
    rw [Finset.mem_Icc]; omega
  · rw [mem_coe, Finset.mem_Icc] at hb
    exact ⟨b.toNat, by rw [mem_coe, mem_range]; omega, by simp; omega⟩

theorem sum_Icc_sym (w : ℕ) (ell : ℤ) (h : ell ≤ w) (f : ℤ → ℂ) : ∑ m ∈ Icc (-ell) ell, f m = ∑ μ ∈ range (2 * w + 1), if -ell ≤ (μ : ℤ) - w ∧ (μ : ℤ) - w ≤ ell then f ((μ : ℤ) - w) else 0 := by
  rw [← sum_filter]
  symm
  refine sum_nbij (fun l : ℕ => (l : ℤ) - w) (fun l hl => ?_) (fun a _ b _ h => by simpa using h) (fun b hb => ?_) (fun _ _ => rfl)
  · rw [mem_filter, mem_range] at hl
    rw [Finset.mem_Icc]; omega
  · rw [mem_coe, Finset.mem_Icc] at hb
    refine ⟨(b + w).toNat, ?_, by simp; omega⟩
    rw [mem_coe, mem_filter, mem_range]
    omega

/-- A function with modes up to `w` that vanishes on the grid of `2 w + 1` times `2 w + 1` points has no modes. -/
theorem grid_zero (s : ℤ) (w : ℕ) (hw : 1 ≤ w) (c : ℤ → ℤ → ℂ) (h : ∀ R ∈ nodes (2 * w + 1), expansion s w c R = 0) (ell m : ℤ) (h1 : |s| ≤ ell) (h2 : ell ≤ w) (h3 : -ell ≤ m) (h4 : m ≤ ell) : c ell m = 0 := by
  have hs0 : 0 ≤ |s| := abs_nonneg s
  let v : ℕ → ℕ → Prop := fun μ l => |s| ≤ l ∧ -(l : ℤ) ≤ (μ : ℤ) - w ∧ (μ : ℤ) - w ≤ l
  have hdec : ∀ μ, DecidablePred (v μ) := fun μ l => inferInstanceAs (Decidable (|s| ≤ l ∧ -(l : ℤ) ≤ (μ : ℤ) - w ∧ (μ : ℤ) - w ≤ l))
  let θ : ℕ → ℝ := fun j => Real.pi * j / (2 * w)
  let g : ℕ → ℕ → ℂ := fun j μ => ∑ l ∈ range (w + 1), if v μ l then c l ((μ : ℤ) - w) * fac s l ((μ : ℤ) - w) *
    coef (2 * l) (Real.cos (θ j / 2) : ℝ) (-(Real.sin (θ j / 2) : ℝ)) (Real.sin (θ j / 2) : ℝ) (Real.cos (θ j / 2) : ℝ) ((l : ℤ) + ((μ : ℤ) - w)).toNat ((l : ℤ) + -s).toNat else 0
  have key : ∀ j < 2 * w + 1, ∀ μ < 2 * w + 1, g j μ = 0 := by
    intro j hj
    apply phi_indep
    intro k hk
    let φ : ℝ := 2 * Real.pi * k / (2 * w + 1 : ℕ)
    have hz : expansion s w c (rotor (θ j) φ) = 0 := by
      apply h
      unfold nodes
      rw [List.mem_flatMap]
      refine ⟨j, List.mem_range.mpr hj, List.mem_map.mpr ⟨k, List.mem_range.mpr hk, ?_⟩⟩
      congr 2
      push_cast
      ring
    have e : expansion s w c (rotor (θ j) φ) = Complex.exp (-(w * φ * Complex.I)) * ∑ μ ∈ range (2 * w + 1), g j μ * Complex.exp (2 * Real.pi * k / (2 * w + 1 : ℕ) * μ * Complex.I) := by
      unfold expansion
      rw [sum_Icc_nat]
      have e1 : ∀ l ∈ range (w + 1), ∑ m ∈ Icc (-(l : ℤ)) l, c l m * Y s l m (rotor (θ j) φ) =
          ∑ μ ∈ range (2 * w + 1), if -(l : ℤ) ≤ (μ : ℤ) - w ∧ (μ : ℤ) - w ≤ l then c l ((μ : ℤ) - w) * Y s l ((μ : ℤ) - w) (rotor (θ j) φ) else 0 := by
        intro l hl
        rw [mem_range] at hl
        exact sum_Icc_sym w l (by omega) _
      rw [sum_congr rfl e1, sum_comm, mul_sum]
      refine sum_congr rfl fun μ _ => ?_
      rw [sum_mul, mul_sum]
      refine sum_congr rfl fun l _ => ?_
      by_cases hμ : -(l : ℤ) ≤ (μ : ℤ) - w ∧ (μ : ℤ) - w ≤ l
      · rw [if_pos hμ]
        by_cases hsl : |s| ≤ l
        · rw [if_pos (show v μ l from ⟨hsl, hμ⟩), Y_rotor hsl hμ.1 hμ.2]
          have ex : Complex.exp ((((μ : ℤ) - w : ℤ) : ℂ) * φ * Complex.I) = Complex.exp (-(w * φ * Complex.I)) * Complex.exp (2 * Real.pi * k / (2 * w + 1 : ℕ) * μ * Complex.I) := by
            rw [← Complex.exp_add]
            congr 1
            show _ * ((2 * Real.pi * k / (2 * w + 1 : ℕ) : ℝ) : ℂ) * _ = -(w * ((2 * Real.pi * k / (2 * w + 1 : ℕ) : ℝ) : ℂ) * _) + _
            push_cast
            ring
          rw [ex, show (2 * (l : ℤ)).toNat = 2 * l by omega]
          ring
        · rw [if_neg (show ¬ v μ l from fun hv => hsl hv.1)]
          have : Y s l ((μ : ℤ) - w) (rotor (θ j) φ) = 0 := if_neg hsl
          rw [this, mul_zero, zero_mul, mul_zero]
      · rw [if_neg hμ, if_neg (show ¬ v μ l from fun hv => hμ hv.2), zero_mul, mul_zero]
    rw [hz] at e
    exact (mul_eq_zero.mp e.symm).resolve_left (Complex.exp_ne_zero _)
  let μ := (m + w).toNat
  have hμ : (μ : ℤ) - w = m := by show (((m + w).toNat : ℕ) : ℤ) - w = m; omega
  have := theta_indep w hw (fun l => ((l : ℤ) + ((μ : ℤ) - w)).toNat) (fun l => ((l : ℤ) + -s).toNat) (v μ) (fun l hl => by
    have hs := abs_le.mp hl.1
    have := hl.2
    constructor <;> omega) (fun l => c l ((μ : ℤ) - w) * fac s l ((μ : ℤ) - w)) (fun k hk => key k hk μ (by omega)) ell.toNat (by omega) ⟨by omega, by omega⟩
  have he : ((ell.toNat : ℕ) : ℤ) = ell := by omega
  simp only [he, hμ] at this
  exact (mul_eq_zero.mp this).resolve_right (fac_ne _ _ _ (by omega))

theorem expansion_sub (s L : ℤ) (c d : ℤ → ℤ → ℂ) (R : Quaternion ℝ) : expansion s L (fun a b => c a b - d a b) R = expansion s L c R - expansion s L d R := by
  unfold expansion
  rw [← sum_sub_distrib]
  refine sum_congr rfl fun a _ => ?_
  rw [← sum_sub_distrib]
  refine sum_congr rfl fun b _ => by ring

/-- The grid determines the modes. -/
theorem grid_injective (s w : ℤ) (hw : 1 ≤ w) (c d : ℤ → ℤ → ℂ) (h : (nodes (2 * w + 1).toNat).map (expansion s w c) = (nodes (2 * w + 1).toNat).map (expansion s w d))
    (ell m : ℤ) (h1 : |s| ≤ ell) (h2 : ell ≤ w) (h3 : -ell ≤ m) (h4 : m ≤ ell) : c ell m = d ell m := by
  obtain ⟨n, rfl⟩ : ∃ n : ℕ, w = n := ⟨w.toNat, by omega⟩
  have hn : (2 * (n : ℤ) + 1).toNat = 2 * n + 1 := by omega
  rw [hn] at h
  have := grid_zero s n (by omega) (fun a b => c a b - d a b) (fun R hR => by
    rw [expansion_sub, List.map_inj_left.mp h R hR, sub_self]) ell m h1 h2 h3 h4
  exact sub_eq_zero.mp this

theorem nodes_unit (n : ℕ) (R : Quaternion ℝ) (h : R ∈ nodes n) : Spec.Unit R := by
  unfold nodes at h
  rw [List.mem_flatMap] at h
  obtain ⟨j, -, h⟩ := h
  obtain ⟨k, -, rfl⟩ := List.mem_map.mp h
  exact rotor_unit _ _

end Verif.GridMultiply
