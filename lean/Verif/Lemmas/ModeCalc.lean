import Verif.Model.ModeCalc
import Verif.Spec.AngMom
import Verif.Lemmas.Modes
import Mathlib.Tactic.FinCases
import Mathlib.Tactic.LinearCombination
import Mathlib.Tactic.FieldSimp
import Mathlib.Tactic.Positivity

/-!
# The loops of `mode_calculations.py` compute inner products
-/

namespace Verif.ModeCalc
open Verif.Modes Verif.Spec.AngMom ComplexConjugate Finset

/-! ### The list of modes -/

theorem enumLM_eq (a b : Int) (ha : 0 ≤ a) :
    enumLM (LMRange a b) = (LMRange a b).map fun p => (lmIndex p.1 p.2 a, p.1, p.2) := by
  unfold enumLM
  by_cases hb : b < a
  · rw [LMRange_empty hb]; rfl
  · have h := map_index_LMRange a ha (b + 1 - a).toNat
    rw [show a + ((b + 1 - a).toNat : Int) - 1 = b by omega] at h
    apply List.ext_getElem?
    intro k
    rw [List.getElem?_map, List.getElem?_map, List.getElem?_zipIdx]
    have hk := congrArg (fun l => l[k]?) h
    simp only [List.getElem?_map] at hk
    cases hl : (LMRange a b)[k]? with
    | none => simp
    | some p =>
      rw [hl] at hk
      simp only [Option.map_some] at hk ⊢
      rw [getElem?_pyRange] at hk
      split at hk
      · simp only [Option.some.injEq] at hk
        rw [hk]; simp
      · cases hk

theorem sum_LMRange {K : Type} [AddCommMonoid K] (a b : Int) (F : Int → Int → K) :
    ((LMRange a b).map fun p => F p.1 p.2).sum = ∑ ell ∈ Icc a b, ∑ m ∈ Icc (-ell) ell, F ell m := by
  have hr : ∀ (x y : Int) (G : Int → K), ((pyRange x (y + 1)).map G).sum = ∑ k ∈ Icc x y, G k := by
    intro x y G
    have h1 : ((pyRange x (y + 1)).map G).sum = ∑ i ∈ (pyRange x (y + 1)).toFinset, G i :=
      (List.sum_toFinset G (pyRange_nodup _ _)).symm
    rw [h1]
    apply sum_congr _ (fun _ _ => rfl)
    ext k
    rw [List.mem_toFinset, mem_pyRange, mem_Icc]; omega
  unfold LMRange
  rw [← hr a b]
  induction pyRange a (b + 1) with
  | nil => simp
  | cons e L ih =>
    simp only [List.flatMap_cons, List.map_append, List.sum_append, List.map_cons, List.sum_cons, ih]
    congr 1
    rw [← hr (-e) e, List.map_map]
    rfl

theorem foldl_sum {σ K : Type} [AddCommMonoid K] (π : σ → K) (step : σ → Int × Int × Int → σ)
    (δ : Int × Int × Int → K) (hstep : ∀ s p, π (step s p) = π s + δ p) (l : List (Int × Int × Int)) (s : σ) :
    π (l.foldl step s) = π s + (l.map δ).sum := by
  induction l generalizing s with
  | nil => simp
  | cons p l ih => rw [List.foldl_cons, ih, hstep, List.map_cons, List.sum_cons, add_assoc]

/-- A loop over all modes that adds `δ i L M` to a component. -/
theorem loop_sum {σ K : Type} [AddCommMonoid K] (π : σ → K) (step : σ → Int × Int × Int → σ)
    (δ : Int → Int → Int → K) (hstep : ∀ s p, π (step s p) = π s + δ p.1 p.2.1 p.2.2) (a b : Int) (ha : 0 ≤ a)
    (s : σ) (hs : π s = 0) :
    π ((enumLM (LMRange a b)).foldl step s) =
      ∑ ell ∈ Icc a b, ∑ m ∈ Icc (-ell) ell, δ (lmIndex ell m a) ell m := by
  rw [foldl_sum π step (fun p => δ p.1 p.2.1 p.2.2) hstep, hs, zero_add, enumLM_eq a b ha, List.map_map,
    ← sum_LMRange a b (fun ell m => δ (lmIndex ell m a) ell m)]
  rfl

/-! ### Shifts of `m` -/

theorem shift_up (ell k : Int) (hk : 0 ≤ k) (F : Int → ℂ) (h0 : ∀ m, -ell ≤ m → m < -ell + k → m ≤ ell → F m = 0) :
    ∑ m ∈ Icc (-ell) ell, (if m + k ≤ ell then F (m + k) else 0) = ∑ m ∈ Icc (-ell) ell, F m := by
  have h2 : ∑ m ∈ Icc (-ell) ell, F m = ∑ m ∈ Icc (-ell) ell, if -ell + k ≤ m then F m else 0 := by
    apply sum_congr rfl
    intro m hm
    rw [mem_Icc] at hm
    split
    · rfl
    · exact h0 m hm.1 (by omega) hm.2
  rw [h2, ← sum_filter, ← sum_filter]
  apply sum_nbij' (fun m => m + k) (fun m => m - k)
  · intro m hm; simp only [mem_filter, mem_Icc] at hm ⊢; omega
  · intro m hm; simp only [mem_filter, mem_Icc] at hm ⊢; omega
  · intro m _; omega
  · intro m _; omega
  · intro m _; rfl

theorem shift_down (ell k : Int) (hk : 0 ≤ k) (F : Int → ℂ) (h0 : ∀ m, m ≤ ell → ell - k < m → -ell ≤ m → F m = 0) :
    ∑ m ∈ Icc (-ell) ell, (if m - k ≥ -ell then F (m - k) else 0) = ∑ m ∈ Icc (-ell) ell, F m := by
  have h2 : ∑ m ∈ Icc (-ell) ell, F m = ∑ m ∈ Icc (-ell) ell, if m ≤ ell - k then F m else 0 := by
    apply sum_congr rfl
    intro m hm
    rw [mem_Icc] at hm
    split
    · rfl
    · exact h0 m hm.2 (by omega) hm.1
  rw [h2, ← sum_filter, ← sum_filter]
  apply sum_nbij' (fun m => m - k) (fun m => m + k)
  · intro m hm; simp only [mem_filter, mem_Icc] at hm ⊢; omega
  · intro m hm; simp only [mem_filter, mem_Icc] at hm ⊢; omega
  · intro m _; omega
  · intro m _; omega
  · intro m _; rfl

/-! ### Coefficients -/

theorem ladder_neg (ell m : Int) : ladder ell (-m) = ladder ell (m - 1) := by
  unfold ladder; congr 2; ring

theorem raise_eq (g : Fn) (ell m : Int) : raise g ell m = (ladder ell (m - 1) : ℂ) * g ell (m - 1) := by
  unfold raise ladder; congr 3; push_cast; ring

theorem lower_eq (g : Fn) (ell m : Int) : lower g ell m = (ladder ell m : ℂ) * g ell (m + 1) := by
  unfold lower ladder; congr 3; push_cast; ring

theorem ladder_top (ell : Int) : ladder ell ell = 0 := by
  unfold ladder; simp

theorem ladder_bot (ell : Int) : ladder ell (-ell - 1) = 0 := by
  unfold ladder; rw [show (ell * (ell + 1) - (-ell - 1) * (-ell - 1 + 1)) = 0 by ring]; simp

theorem ladder_sq (ell m : Int) (h : -ell - 1 ≤ m ∧ m ≤ ell) :
    ladder ell m * ladder ell m = ((ell * (ell + 1) - m * (m + 1) : Int) : ℝ) := by
  unfold ladder
  rw [Real.mul_self_sqrt]
  have : 0 ≤ ell * (ell + 1) - m * (m + 1) := by
    have : ell * (ell + 1) - m * (m + 1) = (ell - m) * (ell + m + 1) := by ring
    rw [this]; exact mul_nonneg (by omega) (by omega)
  exact_mod_cast this

/-- The modes stored in a data row. -/
def fn (a : Int) (row : Row ℂ) : Fn := fun ell m => row (lmIndex ell m a)

theorem idx_add (a ell m k : Int) : lmIndex ell m a + k = lmIndex ell (m + k) a := by unfold lmIndex; ring
theorem idx_sub (a ell m k : Int) : lmIndex ell m a - k = lmIndex ell (m - k) a := by unfold lmIndex; ring

section sums
variable (d1 d2 : Row ℂ) (a ell : Int)

theorem sum_Lp : ∑ m ∈ Icc (-ell) ell, Lp d1 d2 (lmIndex ell m a) ell m =
    ∑ m ∈ Icc (-ell) ell, conj (fn a d1 ell m) * raise (fn a d2) ell m := by
  rw [← shift_up ell 1 (by norm_num) (fun m => conj (fn a d1 ell m) * raise (fn a d2) ell m)]
  · apply sum_congr rfl
    intro m _
    unfold Lp
    split
    · rw [idx_add, raise_eq, add_sub_cancel_right]; unfold fn; ring
    · rfl
  · intro m h1 h2 _
    have : m = -ell := by omega
    subst this
    simp only [raise_eq, ladder_bot]; simp

theorem sum_Lm : ∑ m ∈ Icc (-ell) ell, Lm d1 d2 (lmIndex ell m a) ell m =
    ∑ m ∈ Icc (-ell) ell, conj (fn a d1 ell m) * lower (fn a d2) ell m := by
  rw [← shift_down ell 1 (by norm_num) (fun m => conj (fn a d1 ell m) * lower (fn a d2) ell m)]
  · apply sum_congr rfl
    intro m _
    unfold Lm
    split
    · rw [idx_sub, lower_eq, sub_add_cancel, ladder_neg]; unfold fn; ring
    · rfl
  · intro m h1 h2 _
    have : m = ell := by omega
    subst this
    simp only [lower_eq, ladder_top]; simp

theorem sum_pp : ∑ m ∈ Icc (-ell) ell, (prods d1 d2 (lmIndex ell m a) ell m).pp =
    ∑ m ∈ Icc (-ell) ell, conj (fn a d1 ell m) * raise (raise (fn a d2)) ell m := by
  rw [← shift_up ell 2 (by norm_num) (fun m => conj (fn a d1 ell m) * raise (raise (fn a d2)) ell m)]
  · apply sum_congr rfl
    intro m _
    unfold prods
    simp only
    split
    · rw [idx_add, raise_eq, raise_eq, show m + 2 - 1 = m + 1 by ring, show m + 1 - 1 = m by ring]
      unfold fn; push_cast; ring
    · rfl
  · intro m h1 h2 _
    rw [raise_eq, raise_eq]
    rcases (by omega : m = -ell ∨ m = -ell + 1) with rfl | rfl
    · rw [ladder_bot]; simp
    · rw [show -ell + 1 - 1 - 1 = -ell - 1 by ring, ladder_bot]; simp

theorem sum_mm : ∑ m ∈ Icc (-ell) ell, (prods d1 d2 (lmIndex ell m a) ell m).mm =
    ∑ m ∈ Icc (-ell) ell, conj (fn a d1 ell m) * lower (lower (fn a d2)) ell m := by
  rw [← shift_down ell 2 (by norm_num) (fun m => conj (fn a d1 ell m) * lower (lower (fn a d2)) ell m)]
  · apply sum_congr rfl
    intro m _
    unfold prods
    simp only
    split
    · rw [idx_sub, lower_eq, lower_eq, show m - 2 + 1 = m - 1 by ring, show m - 1 + 1 = m by ring, ladder_neg,
        ladder_neg, show m - 1 - 1 = m - 2 by ring]
      unfold fn; push_cast; ring
    · rfl
  · intro m h1 h2 _
    rw [lower_eq, lower_eq]
    rcases (by omega : m = ell ∨ m = ell - 1) with rfl | rfl
    · rw [ladder_top]; simp
    · rw [show ell - 1 + 1 = ell by ring, ladder_top]; simp

theorem sum_pm : ∑ m ∈ Icc (-ell) ell, (prods d1 d2 (lmIndex ell m a) ell m).pm =
    ∑ m ∈ Icc (-ell) ell, conj (fn a d1 ell m) * raise (lower (fn a d2)) ell m := by
  apply sum_congr rfl
  intro m hm
  rw [mem_Icc] at hm
  unfold prods
  simp only
  rw [raise_eq, lower_eq, sub_add_cancel]
  split
  · rw [ladder_neg]; unfold fn; push_cast; ring
  · have : m = -ell := by omega
    subst this
    rw [ladder_bot]; simp

theorem sum_mp : ∑ m ∈ Icc (-ell) ell, (prods d1 d2 (lmIndex ell m a) ell m).mp =
    ∑ m ∈ Icc (-ell) ell, conj (fn a d1 ell m) * lower (raise (fn a d2)) ell m := by
  apply sum_congr rfl
  intro m hm
  rw [mem_Icc] at hm
  unfold prods
  simp only
  rw [lower_eq, raise_eq, add_sub_cancel_right]
  split
  · rw [ladder_neg, add_sub_cancel_right]; unfold fn; push_cast; ring
  · have : m = ell := by omega
    subst this
    rw [ladder_top]; simp

/-- `L_z` -/
noncomputable def zop (g : Fn) : Fn := fun ell m => (m : ℂ) * g ell m

theorem sum_Lz : ∑ m ∈ Icc (-ell) ell, Lz d1 d2 (lmIndex ell m a) ell m =
    ∑ m ∈ Icc (-ell) ell, conj (fn a d1 ell m) * zop (fn a d2) ell m := by
  apply sum_congr rfl
  intro m _
  unfold Lz zop fn; ring

theorem sum_zz : ∑ m ∈ Icc (-ell) ell, (prods d1 d2 (lmIndex ell m a) ell m).zz =
    ∑ m ∈ Icc (-ell) ell, conj (fn a d1 ell m) * zop (zop (fn a d2)) ell m := by
  apply sum_congr rfl
  intro m _
  unfold prods zop fn; ring

theorem sum_pz : ∑ m ∈ Icc (-ell) ell, (prods d1 d2 (lmIndex ell m a) ell m).pz =
    ∑ m ∈ Icc (-ell) ell, conj (fn a d1 ell m) * raise (zop (fn a d2)) ell m := by
  rw [← shift_up ell 1 (by norm_num) (fun m => conj (fn a d1 ell m) * raise (zop (fn a d2)) ell m)]
  · apply sum_congr rfl
    intro m _
    unfold prods
    simp only
    split
    · rw [idx_add, raise_eq, add_sub_cancel_right]; unfold zop fn; push_cast; ring
    · rfl
  · intro m h1 h2 _
    have : m = -ell := by omega
    subst this
    simp only [raise_eq, ladder_bot]; simp

theorem sum_zp : ∑ m ∈ Icc (-ell) ell, (prods d1 d2 (lmIndex ell m a) ell m).zp =
    ∑ m ∈ Icc (-ell) ell, conj (fn a d1 ell m) * zop (raise (fn a d2)) ell m := by
  rw [← shift_up ell 1 (by norm_num) (fun m => conj (fn a d1 ell m) * zop (raise (fn a d2)) ell m)]
  · apply sum_congr rfl
    intro m _
    unfold prods
    simp only
    split
    · unfold zop
      rw [idx_add, raise_eq, add_sub_cancel_right]; unfold fn; push_cast; ring
    · rfl
  · intro m h1 h2 _
    have : m = -ell := by omega
    subst this
    simp only [zop, raise_eq, ladder_bot]; simp

theorem sum_mz : ∑ m ∈ Icc (-ell) ell, (prods d1 d2 (lmIndex ell m a) ell m).mz =
    ∑ m ∈ Icc (-ell) ell, conj (fn a d1 ell m) * lower (zop (fn a d2)) ell m := by
  rw [← shift_down ell 1 (by norm_num) (fun m => conj (fn a d1 ell m) * lower (zop (fn a d2)) ell m)]
  · apply sum_congr rfl
    intro m _
    unfold prods
    simp only
    split
    · rw [idx_sub, lower_eq, sub_add_cancel, ladder_neg]; unfold zop fn; push_cast; ring
    · rfl
  · intro m h1 h2 _
    have : m = ell := by omega
    subst this
    simp only [lower_eq, ladder_top]; simp

theorem sum_zm : ∑ m ∈ Icc (-ell) ell, (prods d1 d2 (lmIndex ell m a) ell m).zm =
    ∑ m ∈ Icc (-ell) ell, conj (fn a d1 ell m) * zop (lower (fn a d2)) ell m := by
  rw [← shift_down ell 1 (by norm_num) (fun m => conj (fn a d1 ell m) * zop (lower (fn a d2)) ell m)]
  · apply sum_congr rfl
    intro m _
    unfold prods
    simp only
    split
    · unfold zop
      rw [idx_sub, lower_eq, sub_add_cancel, ladder_neg]; unfold fn; push_cast; ring
    · rfl
  · intro m h1 h2 _
    have : m = ell := by omega
    subst this
    simp only [zop, lower_eq, ladder_top]; simp

end sums

/-! ### The inner product -/

theorem inner_add (a b : Int) (f g h : Fn) : inner a b f (fun e m => g e m + h e m) = inner a b f g + inner a b f h := by
  unfold Verif.Spec.AngMom.inner
  rw [← sum_add_distrib]
  apply sum_congr rfl
  intro e _
  rw [← sum_add_distrib]
  apply sum_congr rfl
  intro m _
  ring

theorem inner_smul (a b : Int) (c : ℂ) (f g : Fn) : inner a b f (fun e m => c * g e m) = c * inner a b f g := by
  unfold Verif.Spec.AngMom.inner
  rw [mul_sum]
  apply sum_congr rfl
  intro e _
  rw [mul_sum]
  apply sum_congr rfl
  intro m _
  ring

theorem inner_conj (a b : Int) (f g : Fn) : conj (inner a b f g) = inner a b g f := by
  unfold Verif.Spec.AngMom.inner
  rw [map_sum]
  apply sum_congr rfl
  intro e _
  rw [map_sum]
  apply sum_congr rfl
  intro m _
  rw [map_mul, Complex.conj_conj]; ring

theorem inner_raise (a b : Int) (f g : Fn) : inner a b f (raise g) = inner a b (lower f) g := by
  unfold Verif.Spec.AngMom.inner
  apply sum_congr rfl
  intro ell _
  rw [← shift_up ell 1 (by norm_num) (fun m => conj (f ell m) * raise g ell m)]
  · apply sum_congr rfl
    intro m hm
    rw [mem_Icc] at hm
    rw [raise_eq, lower_eq, add_sub_cancel_right, map_mul, Complex.conj_ofReal]
    split
    · ring
    · have : m = ell := by omega
      subst this
      rw [ladder_top]; simp
  · intro m h1 h2 _
    have : m = -ell := by omega
    subst this
    simp only [raise_eq, ladder_bot]; simp

theorem inner_lower (a b : Int) (f g : Fn) : inner a b f (lower g) = inner a b (raise f) g := by
  rw [← inner_conj, ← inner_raise, inner_conj]

theorem inner_zop (a b : Int) (f g : Fn) : inner a b f (zop g) = inner a b (zop f) g := by
  unfold Verif.Spec.AngMom.inner
  apply sum_congr rfl
  intro e _
  apply sum_congr rfl
  intro m _
  unfold zop
  rw [map_mul, map_intCast]; ring

theorem L_zero (g : Fn) : L 0 g = fun e m => (1 / 2) * raise g e m + (1 / 2) * lower g e m := by
  funext e m; unfold L; simp only [if_true]; ring

theorem L_one (g : Fn) : L 1 g = fun e m => (-(1 / 2) * Complex.I) * raise g e m + (1 / 2 * Complex.I) * lower g e m := by
  funext e m; unfold L
  rw [if_neg (by decide), if_pos rfl]
  have : (2 * Complex.I)⁻¹ = -(1 / 2) * Complex.I := by
    rw [mul_inv, Complex.inv_I]; ring
  rw [div_eq_mul_inv, this]; ring

theorem L_two (g : Fn) : L 2 g = zop g := by
  funext e m; unfold L zop
  rw [if_neg (by decide), if_neg (by decide)]

/-- The inner products with `L_a g` in terms of the ladder operators. -/
theorem inner_L0 (a b : Int) (f g : Fn) : inner a b f (L 0 g) = 1 / 2 * (inner a b f (raise g) + inner a b f (lower g)) := by
  rw [L_zero, inner_add, inner_smul, inner_smul]; ring

theorem inner_L1 (a b : Int) (f g : Fn) :
    inner a b f (L 1 g) = -(1 / 2) * Complex.I * (inner a b f (raise g) - inner a b f (lower g)) := by
  rw [L_one, inner_add, inner_smul, inner_smul]; ring

/-- Each `L_a` is Hermitian. -/
theorem inner_L (a b : Int) (c : Fin 3) (f g : Fn) : inner a b f (L c g) = inner a b (L c f) g := by
  have hconj : ∀ h k, inner a b (L c h) k = conj (inner a b k (L c h)) := fun h k => (inner_conj a b k (L c h)).symm
  rw [hconj]
  fin_cases c
  · show inner a b f (L 0 g) = conj (inner a b g (L 0 f))
    rw [inner_L0, inner_L0, inner_raise, inner_lower]
    simp only [map_mul, map_add, inner_conj, map_div₀, map_one, Complex.conj_ofNat]
    ring
  · show inner a b f (L 1 g) = conj (inner a b g (L 1 f))
    rw [inner_L1, inner_L1, inner_raise, inner_lower]
    simp only [map_mul, map_sub, inner_conj, map_div₀, map_one, Complex.conj_ofNat, map_neg, Complex.conj_I]
    ring
  · show inner a b f (L 2 g) = conj (inner a b g (L 2 f))
    rw [L_two, L_two, inner_conj, inner_zop]

end Verif.ModeCalc
