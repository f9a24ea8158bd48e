import Verif.Lemmas.GridInjective

/-!
# Values on a grid of `nt` times `np` points determine the modes
-/

namespace Verif.GridMultiply

open Verif Verif.Modes Verif.Wigner Finset Polynomial
open Verif.GridMultiply.Spec (expansion)

/-- Functions of the polar angle. -/
theorem theta_indep_rect (w N : ℕ) (hw : 2 * w + 1 ≤ N) (i j : ℕ → ℕ) (v : ℕ → Prop) [DecidablePred v] (hv : ∀ l, v l → i l ≤ 2 * l ∧ j l ≤ 2 * l) (α : ℕ → ℂ)
    (h : ∀ k < N, ∑ l ∈ range (w + 1), (if v l then α l * coef (2 * l) (Real.cos (Real.pi * k / ((N : ℝ) - 1) / 2) : ℝ) (-(Real.sin (Real.pi * k / ((N : ℝ) - 1) / 2) : ℝ)) (Real.sin (Real.pi * k / ((N : ℝ) - 1) / 2) : ℝ)
      (Real.cos (Real.pi * k / ((N : ℝ) - 1) / 2) : ℝ) (i l) (j l) else 0) = 0) : ∀ l ≤ w, v l → α l = 0 := by
  apply tp_indep i j v hv α w
  let u : Fin N → ℂ := fun k => Complex.exp ((Real.pi * k / ((N : ℝ) - 1) : ℝ) * Complex.I)
  have hu : Function.Injective u := by
    intro a b hab
    rcases Nat.lt_or_ge N 2 with hN | hN
    · exact Fin.ext (by omega)
    have hNr : (0 : ℝ) < (N : ℝ) - 1 := by
      have : (2 : ℝ) ≤ N := by exact_mod_cast hN
      linarith
    have hr : ∀ c : Fin N, (Real.pi * (c : ℕ) / ((N : ℝ) - 1) : ℝ) ∈ Set.Ioc (-Real.pi) Real.pi := by
      intro c
      have hp := Real.pi_pos
      have hc : ((c : ℕ) : ℝ) ≤ (N : ℝ) - 1 := by
        have : ((c : ℕ) : ℝ) + 1 ≤ N := by exact_mod_cast (by omega : (c : ℕ) + 1 ≤ N)
        linarith
      constructor
      · have : (0 : ℝ) ≤ Real.pi * (c : ℕ) / ((N : ℝ) - 1) := by positivity
        linarith
      · rw [div_le_iff₀ hNr]
        nlinarith
    have ha := Complex.arg_exp_mul_I (Real.pi * (a : ℕ) / ((N : ℝ) - 1))
    have hb := Complex.arg_exp_mul_I (Real.pi * (b : ℕ) / ((N : ℝ) - 1))
    rw [(toIocMod_eq_self Real.two_pi_pos).mpr (by have := hr a; constructor <;> linarith [this.1, this.2])] at ha
    rw [(toIocMod_eq_self Real.two_pi_pos).mpr (by have := hr b; constructor <;> linarith [this.1, this.2])] at hb
    have : (Real.pi * (a : ℕ) / ((N : ℝ) - 1) : ℝ) = Real.pi * (b : ℕ) / ((N : ℝ) - 1) := by
      rw [← ha, ← hb]
      exact congrArg Complex.arg hab
    have hp := Real.pi_pos
    rw [div_left_inj' hNr.ne'] at this
    have := mul_left_cancel₀ hp.ne' this
    exact Fin.ext (by exact_mod_cast this)
  apply eq_zero_of_natDegree_lt_card_of_eval_eq_zero _ hu
  · intro k
    have hk := h k k.2
    set θ : ℝ := Real.pi * (k : ℕ) / ((N : ℝ) - 1) with hθ
    let z : ℂ := Complex.exp ((θ / 2 : ℝ) * Complex.I)
    have hz : z ≠ 0 := Complex.exp_ne_zero _
    have hzu : u k = z ^ 2 := by
      show Complex.exp _ = Complex.exp _ ^ 2
      rw [← Complex.exp_nat_mul]
      congr 1
      rw [hθ]
      push_cast
      ring
    have hzi : z * Complex.exp (-((θ / 2 : ℝ) * Complex.I)) = 1 := by
      show Complex.exp _ * _ = 1
      rw [← Complex.exp_add, add_neg_cancel, Complex.exp_zero]
    have hc : z * (Real.cos (θ / 2) : ℝ) = (1 / 2) * z ^ 2 + 1 / 2 := by
      rw [Complex.ofReal_cos, Complex.cos]
      have : Complex.exp (-(θ / 2 : ℝ) * Complex.I) = Complex.exp (-((θ / 2 : ℝ) * Complex.I)) := by rw [neg_mul]
      rw [this]
      linear_combination (1 / 2) * hzi
    have hs : z * (Real.sin (θ / 2) : ℝ) = (-Complex.I / 2) * z ^ 2 + Complex.I / 2 := by
      rw [Complex.ofReal_sin, Complex.sin]
      have : Complex.exp (-(θ / 2 : ℝ) * Complex.I) = Complex.exp (-((θ / 2 : ℝ) * Complex.I)) := by rw [neg_mul]
      rw [this]
      linear_combination (Complex.I / 2) * hzi
    rw [eval_finsetSum, hzu]
    have e : ∀ l ∈ range (w + 1), eval (z ^ 2) ((if v l then C (α l) * tp (2 * l) (i l) (j l) else 0) * X ^ (w - l)) =
        z ^ (2 * w) * (if v l then α l * coef (2 * l) (Real.cos (θ / 2) : ℝ) (-(Real.sin (θ / 2) : ℝ)) (Real.sin (θ / 2) : ℝ) (Real.cos (θ / 2) : ℝ) (i l) (j l) else 0) := by
      intro l hl
      rw [mem_range] at hl
      split_ifs with hvl
      · have hsc := coef_scale (2 * l) z (Real.cos (θ / 2) : ℝ) (-(Real.sin (θ / 2) : ℝ)) (Real.sin (θ / 2) : ℝ) (Real.cos (θ / 2) : ℝ) (i l) (hv l hvl).1 (j l)
        simp only [eval_mul, eval_C, eval_pow, eval_X, tp_eval]
        rw [mul_neg, hc, hs] at hsc
        have e2 : (Complex.I / 2) * z ^ 2 + -Complex.I / 2 = -((-Complex.I / 2) * z ^ 2 + Complex.I / 2) := by ring
        rw [e2, hsc, show 2 * w = 2 * l + 2 * (w - l) by omega, pow_add, pow_mul z 2 (w - l)]
        ring
      · simp
    rw [sum_congr rfl e, ← mul_sum, hk, mul_zero]
  · rw [Fintype.card_fin]
    refine lt_of_le_of_lt (natDegree_sum_le_of_forall_le (n := 2 * w) _ _ fun l hl => ?_) (by omega)
    rw [mem_range] at hl
    refine natDegree_mul_le.trans ?_
    rw [natDegree_X_pow]
    split_ifs with hvl
    · have := (natDegree_C_mul_le (α l) (tp (2 * l) (i l) (j l))).trans (tp_degree _ _ _)
      omega
    · rw [natDegree_zero]; omega

/-- A function with modes up to `w` that vanishes on a grid of at least `2 w + 1` times `2 w + 1` points has no modes. -/
theorem grid_zero_rect (s : ℤ) (w nt np : ℕ) (hw : 2 * w + 1 ≤ nt) (hp : 2 * w + 1 ≤ np) (c : ℤ → ℤ → ℂ) (h : ∀ R ∈ rect nt np, expansion s w c R = 0) (ell m : ℤ) (h1 : |s| ≤ ell) (h2 : ell ≤ w) (h3 : -ell ≤ m) (h4 : m ≤ ell) : c ell m = 0 := by
  have hs0 : 0 ≤ |s| := abs_nonneg s
  let v : ℕ → ℕ → Prop := fun μ l => |s| ≤ l ∧ -(l : ℤ) ≤ (μ : ℤ) - w ∧ (μ : ℤ) - w ≤ l
  have hdec : ∀ μ, DecidablePred (v μ) := fun μ l => inferInstanceAs (Decidable (|s| ≤ l ∧ -(l : ℤ) ≤ (μ : ℤ) - w ∧ (μ : ℤ) - w ≤ l))
  let θ : ℕ → ℝ := fun j => Real.pi * j / ((nt : ℝ) - 1)
  let g : ℕ → ℕ → ℂ := fun j μ => ∑ l ∈ range (w + 1), if v μ l then c l ((μ : ℤ) - w) * fac s l ((μ : ℤ) - w) *
    coef (2 * l) (Real.cos (θ j / 2) : ℝ) (-(Real.sin (θ j / 2) : ℝ)) (Real.sin (θ j / 2) : ℝ) (Real.cos (θ j / 2) : ℝ) ((l : ℤ) + ((μ : ℤ) - w)).toNat ((l : ℤ) + -s).toNat else 0
  have key : ∀ j < nt, ∀ μ < 2 * w + 1, g j μ = 0 := by
    intro j hj
    have key' : ∀ μ < np, (if μ < 2 * w + 1 then g j μ else 0) = 0 := ?_
    · intro μ hμ
      have := key' μ (by omega)
      rwa [if_pos hμ] at this
    apply phi_indep
    intro k hk
    let φ : ℝ := 2 * Real.pi * k / np
    have hz : expansion s w c (rotor (θ j) φ) = 0 := by
      apply h
      unfold rect
      rw [List.mem_flatMap]
      refine ⟨j, List.mem_range.mpr hj, List.mem_map.mpr ⟨k, List.mem_range.mpr hk, rfl⟩⟩
    have e : expansion s w c (rotor (θ j) φ) = Complex.exp (-(w * φ * Complex.I)) * ∑ μ ∈ range (2 * w + 1), g j μ * Complex.exp (2 * Real.pi * k / np * μ * Complex.I) := by
      unfold expansion
      rw [sum_Icc_nat]
      have e1 : ∀ l ∈ range (w + 1), ∑ m ∈ Icc (-(l : ℤ)) l, c l m * Y s l m (rotor (θ j) φ) =
          ∑ μ ∈ range (2 * w + 1), if -(l : ℤ) ≤ (μ : ℤ) - w ∧ (μ : ℤ) - w ≤ l then c l ((μ : ℤ) - w) * Y s l ((μ : ℤ) - w) (rotor (θ j) φ) else 0 := by
        intro l hl
        rw [mem_range] at hl
        exact sum_Icc_sym w l (by omega) _
      rw [sum_congr rfl e1, sum_comm, mul_sum]
      refine sum_congr rfl fun μ _ => ?_
      rw [sum_mul, mul_sum]
      refine sum_congr rfl fun l _ => ?_
      by_cases hμ : -(l : ℤ) ≤ (μ : ℤ) - w ∧ (μ : ℤ) - w ≤ l
      · rw [if_pos hμ]
        by_cases hsl : |s| ≤ l
        · rw [if_pos (show v μ l from ⟨hsl, hμ⟩), Y_rotor hsl hμ.1 hμ.2]
          have ex : Complex.exp ((((μ : ℤ) - w : ℤ) : ℂ) * φ * Complex.I) = Complex.exp (-(w * φ * Complex.I)) * Complex.exp (2 * Real.pi * k / np * μ * Complex.I) := by
            rw [← Complex.exp_add]
            congr 1
            show _ * ((2 * Real.pi * k / np : ℝ) : ℂ) * _ = -(w * ((2 * Real.pi * k / np : ℝ) : ℂ) * _) + _
            push_cast
            ring
          rw [ex, show (2 * (l : ℤ)).toNat = 2 * l by omega]
          ring
        · rw [if_neg (show ¬ v μ l from fun hv => hsl hv.1)]
          have : Y s l ((μ : ℤ) - w) (rotor (θ j) φ) = 0 := if_neg hsl
          rw [this, mul_zero, zero_mul, mul_zero]
      · rw [if_neg hμ, if_neg (show ¬ v μ l from fun hv => hμ hv.2), zero_mul, mul_zero]
    rw [hz] at e
    refine Eq.trans ?_ ((mul_eq_zero.mp e.symm).resolve_left (Complex.exp_ne_zero _))
    symm
    refine sum_subset_zero_on_sdiff (range_subset_range.mpr hp) (fun μ hμ => ?_) (fun μ hμ => ?_)
    · rw [mem_sdiff, mem_range, mem_range] at hμ
      rw [if_neg hμ.2, zero_mul]
    · rw [mem_range] at hμ
      rw [if_pos hμ]
  let μ := (m + w).toNat
  have hμ : (μ : ℤ) - w = m := by show (((m + w).toNat : ℕ) : ℤ) - w = m; omega
  have := theta_indep_rect w nt hw (fun l => ((l : ℤ) + ((μ : ℤ) - w)).toNat) (fun l => ((l : ℤ) + -s).toNat) (v μ) (fun l hl => by
    have hs := abs_le.mp hl.1
    have := hl.2
    constructor <;> omega) (fun l => c l ((μ : ℤ) - w) * fac s l ((μ : ℤ) - w)) (fun k hk => key k hk μ (by omega)) ell.toNat (by omega) ⟨by omega, by omega⟩
  have he : ((ell.toNat : ℕ) : ℤ) = ell := by omega
  simp only [he, hμ] at this
  exact (mul_eq_zero.mp this).resolve_right (fac_ne _ _ _ (by omega))

/-- The grid determines the modes. -/
theorem rect_injective (s : ℤ) (w nt np : ℕ) (hw : 2 * w + 1 ≤ nt) (hp : 2 * w + 1 ≤ np) (c d : ℤ → ℤ → ℂ) (h : (rect nt np).map (expansion s w c) = (rect nt np).map (expansion s w d))
    (ell m : ℤ) (h1 : |s| ≤ ell) (h2 : ell ≤ w) (h3 : -ell ≤ m) (h4 : m ≤ ell) : c ell m = d ell m := by
  have := grid_zero_rect s w nt np hw hp (fun a b => c a b - d a b) (fun R hR => by
    rw [expansion_sub, List.map_inj_left.mp h R hR, sub_self]) ell m h1 h2 h3 h4
  exact sub_eq_zero.mp this

theorem rect_unit (nt np : ℕ) (R : Quaternion ℝ) (h : R ∈ rect nt np) : Spec.Unit R := by
  unfold rect at h
  rw [List.mem_flatMap] at h
  obtain ⟨j, -, h⟩ := h
  obtain ⟨k, -, rfl⟩ := List.mem_map.mp h
  exact rotor_unit _ _

end Verif.GridMultiply
