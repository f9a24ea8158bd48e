import Verif.Lemmas.ComMotion
import Mathlib.Analysis.SpecialFunctions.Integrals.Basic
import Mathlib.Tactic.NormNum
import Mathlib.Tactic.FinCases

/-!
# C38: the fit of the motion of the center of mass
-/

namespace Verif.Props.ComMotion

open Verif Verif.ComMotion Verif.Spec.ComMotion Verif.Lemmas.ComMotion

/-! ## With exact integrals -/

/-- `∫ tᵏ c`. -/
noncomputable def mom (com : ℝ → ℝ) (t_i t_f : ℝ) (k : Nat) : ℝ := ∫ t in t_i..t_f, t ^ k * com t

theorem integral_quartic (a b c0 c1 c2 c3 c4 : ℝ) : ∫ t in a..b, (c0 + c1 * t + c2 * t ^ 2 + c3 * t ^ 3 + c4 * t ^ 4) =
    c0 * (b - a) + c1 * (b ^ 2 - a ^ 2) / 2 + c2 * (b ^ 3 - a ^ 3) / 3 + c3 * (b ^ 4 - a ^ 4) / 4 + c4 * (b ^ 5 - a ^ 5) / 5 := by
  have hc : ∀ (f : ℝ → ℝ), Continuous f → IntervalIntegrable f MeasureTheory.volume a b := fun f hf => hf.intervalIntegrable a b
  rw [intervalIntegral.integral_add (hc _ (by fun_prop)) (hc _ (by fun_prop)), intervalIntegral.integral_add (hc _ (by fun_prop)) (hc _ (by fun_prop)),
    intervalIntegral.integral_add (hc _ (by fun_prop)) (hc _ (by fun_prop)), intervalIntegral.integral_add (hc _ (by fun_prop)) (hc _ (by fun_prop))]
  rw [intervalIntegral.integral_const_mul c1 (fun t => t), integral_id]
  simp only [intervalIntegral.integral_const_mul, integral_pow, intervalIntegral.integral_const, smul_eq_mul]
  push_cast
  ring

/-- The misfit in terms of the moments. -/
theorem misfit_eq (com : ℝ → ℝ) (hc : Continuous com) (a b x v w : ℝ) :
    misfit com a b x v w = (∫ t in a..b, com t ^ 2) - 2 * x * mom com a b 0 - 2 * v * mom com a b 1 - w * mom com a b 2 +
      (x ^ 2 * (b - a) + (2 * x * v) * (b ^ 2 - a ^ 2) / 2 + (v ^ 2 + x * w) * (b ^ 3 - a ^ 3) / 3 + (v * w) * (b ^ 4 - a ^ 4) / 4 + (w ^ 2 / 4) * (b ^ 5 - a ^ 5) / 5) := by
  have hi : ∀ (f : ℝ → ℝ), Continuous f → IntervalIntegrable f MeasureTheory.volume a b := fun f hf => hf.intervalIntegrable a b
  have e : ∀ t, (com t - (x + v * t + w * t ^ 2 / 2)) ^ 2 = com t ^ 2 + (-(2 * x)) * (t ^ 0 * com t) + (-(2 * v)) * (t ^ 1 * com t) + (-w) * (t ^ 2 * com t) +
      (x ^ 2 + (2 * x * v) * t + (v ^ 2 + x * w) * t ^ 2 + (v * w) * t ^ 3 + (w ^ 2 / 4) * t ^ 4) := by
    intro t
    ring
  unfold misfit mom
  simp only [e]
  rw [intervalIntegral.integral_add (hi _ (by fun_prop)) (hi _ (by fun_prop)), intervalIntegral.integral_add (hi _ (by fun_prop)) (hi _ (by fun_prop)),
    intervalIntegral.integral_add (hi _ (by fun_prop)) (hi _ (by fun_prop)), intervalIntegral.integral_add (hi _ (by fun_prop)) (hi _ (by fun_prop)),
    integral_quartic, intervalIntegral.integral_const_mul, intervalIntegral.integral_const_mul, intervalIntegral.integral_const_mul]
  ring

/-- A quadratic function has a nonnegative square integral. -/
theorem square_nonneg (a b x v w : ℝ) (h : a < b) :
    0 ≤ x ^ 2 * (b - a) + (2 * x * v) * (b ^ 2 - a ^ 2) / 2 + (v ^ 2 + x * w) * (b ^ 3 - a ^ 3) / 3 + (v * w) * (b ^ 4 - a ^ 4) / 4 + (w ^ 2 / 4) * (b ^ 5 - a ^ 5) / 5 := by
  have h1 := misfit_eq (fun _ => 0) continuous_const a b x v w
  have h2 : 0 ≤ misfit (fun _ => 0) a b x v w := intervalIntegral.integral_nonneg h.le (fun t _ => sq_nonneg _)
  rw [h1] at h2
  simpa [mom] using h2

/-- The fit with acceleration minimises the integrated squared distance. -/
theorem accelFit_optimal (com : ℝ → ℝ) (hc : Continuous com) (t_i t_f : ℝ) (h : t_i < t_f) (x v a : ℝ) :
    let r := accelFit (mom com t_i t_f 0) (mom com t_i t_f 1) (mom com t_i t_f 2) t_i t_f
    misfit com t_i t_f r.1 r.2.1 r.2.2 ≤ misfit com t_i t_f x v a := by
  intro r
  rw [misfit_eq com hc, misfit_eq com hc]
  have hs := square_nonneg t_i t_f (x - r.1) (v - r.2.1) (a - r.2.2) h
  -- the normal equations
  have hne : t_f - t_i ≠ 0 := by linarith
  have n0 : r.1 * (t_f - t_i) + r.2.1 * (t_f ^ 2 - t_i ^ 2) / 2 + r.2.2 * (t_f ^ 3 - t_i ^ 3) / 6 = mom com t_i t_f 0 := by
    simp only [r, accelFit]
    generalize mom com t_i t_f 0 = C0
    generalize mom com t_i t_f 1 = C1
    generalize mom com t_i t_f 2 = C2
    field_simp
    ring
  have n1 : r.1 * (t_f ^ 2 - t_i ^ 2) / 2 + r.2.1 * (t_f ^ 3 - t_i ^ 3) / 3 + r.2.2 * (t_f ^ 4 - t_i ^ 4) / 8 = mom com t_i t_f 1 := by
    simp only [r, accelFit]
    generalize mom com t_i t_f 0 = C0
    generalize mom com t_i t_f 1 = C1
    generalize mom com t_i t_f 2 = C2
    field_simp
    ring
  have n2 : r.1 * (t_f ^ 3 - t_i ^ 3) / 3 + r.2.1 * (t_f ^ 4 - t_i ^ 4) / 4 + r.2.2 * (t_f ^ 5 - t_i ^ 5) / 10 = mom com t_i t_f 2 := by
    simp only [r, accelFit]
    generalize mom com t_i t_f 0 = C0
    generalize mom com t_i t_f 1 = C1
    generalize mom com t_i t_f 2 = C2
    field_simp
    ring
  rw [← n0, ← n1, ← n2]
  generalize r.1 = X at *
  generalize r.2.1 = V at *
  generalize r.2.2 = A at *
  nlinarith [hs]

/-- The fit without acceleration minimises the integrated squared distance. -/
theorem linearFit_optimal (com : ℝ → ℝ) (hc : Continuous com) (t_i t_f : ℝ) (h : t_i < t_f) (x v : ℝ) :
    let r := linearFit (mom com t_i t_f 0) (mom com t_i t_f 1) t_i t_f
    misfit com t_i t_f r.1 r.2 0 ≤ misfit com t_i t_f x v 0 := by
  intro r
  rw [misfit_eq com hc, misfit_eq com hc]
  have hs := square_nonneg t_i t_f (x - r.1) (v - r.2) 0 h
  have hne : t_f - t_i ≠ 0 := by linarith
  have n0 : r.1 * (t_f - t_i) + r.2 * (t_f ^ 2 - t_i ^ 2) / 2 = mom com t_i t_f 0 := by
    simp only [r, linearFit]
    generalize mom com t_i t_f 0 = C0
    generalize mom com t_i t_f 1 = C1
    field_simp
    ring
  have n1 : r.1 * (t_f ^ 2 - t_i ^ 2) / 2 + r.2 * (t_f ^ 3 - t_i ^ 3) / 3 = mom com t_i t_f 1 := by
    simp only [r, linearFit]
    generalize mom com t_i t_f 0 = C0
    generalize mom com t_i t_f 1 = C1
    field_simp
    ring
  rw [← n0, ← n1]
  generalize r.1 = X at *
  generalize r.2 = V at *
  nlinarith [hs]

/-- The fit with acceleration is exact for uniformly accelerated motion. -/
theorem accelFit_exact (x v a t_i t_f : ℝ) (h : t_i < t_f) :
    let com := fun t : ℝ => x + v * t + a * t ^ 2 / 2
    accelFit (mom com t_i t_f 0) (mom com t_i t_f 1) (mom com t_i t_f 2) t_i t_f = (x, v, a) := by
  intro com
  have hne : t_f - t_i ≠ 0 := by linarith
  have m0 : mom com t_i t_f 0 = x * (t_f - t_i) + v * (t_f ^ 2 - t_i ^ 2) / 2 + a / 2 * (t_f ^ 3 - t_i ^ 3) / 3 := by
    have := integral_quartic t_i t_f x v (a / 2) 0 0
    unfold mom
    rw [show (fun t => t ^ 0 * com t) = fun t => x + v * t + a / 2 * t ^ 2 + 0 * t ^ 3 + 0 * t ^ 4 from funext fun t => by simp only [com]; ring, this]
    ring
  have m1 : mom com t_i t_f 1 = x * (t_f ^ 2 - t_i ^ 2) / 2 + v * (t_f ^ 3 - t_i ^ 3) / 3 + a / 2 * (t_f ^ 4 - t_i ^ 4) / 4 := by
    have := integral_quartic t_i t_f 0 x v (a / 2) 0
    unfold mom
    rw [show (fun t => t ^ 1 * com t) = fun t => 0 + x * t + v * t ^ 2 + a / 2 * t ^ 3 + 0 * t ^ 4 from funext fun t => by simp only [com]; ring, this]
    ring
  have m2 : mom com t_i t_f 2 = x * (t_f ^ 3 - t_i ^ 3) / 3 + v * (t_f ^ 4 - t_i ^ 4) / 4 + a / 2 * (t_f ^ 5 - t_i ^ 5) / 5 := by
    have := integral_quartic t_i t_f 0 0 x v (a / 2)
    unfold mom
    rw [show (fun t => t ^ 2 * com t) = fun t => 0 + 0 * t + x * t ^ 2 + v * t ^ 3 + a / 2 * t ^ 4 from funext fun t => by simp only [com]; ring, this]
    ring
  rw [m0, m1, m2]
  unfold accelFit
  refine Prod.ext ?_ (Prod.ext ?_ ?_) <;> simp only <;> field_simp <;> ring

/-! ## With samples -/

theorem window_of_aligned (t com : List ℝ) (hs : t.Pairwise (· < ·)) (hl : com.length = t.length) (skipB skipE : ℝ) (i j : Nat) (ha : Aligned t skipB skipE i j) :
    ∃ L, L = window (t.zip com) i j ∧ window (t.zip com) (nearest t (windowTimes t skipB skipE).1) (nearest t (windowTimes t skipB skipE).2) = L ∧ L.length % 2 = 1 ∧
      (windowTimes t skipB skipE).1 < (windowTimes t skipB skipE).2 ∧
      ∀ α β γ, J L (fun p => α + β * p.1 + γ * p.1 ^ 2) = (α * (windowTimes t skipB skipE).2 + β * (windowTimes t skipB skipE).2 ^ 2 / 2 + γ * (windowTimes t skipB skipE).2 ^ 3 / 3) -
        (α * (windowTimes t skipB skipE).1 + β * (windowTimes t skipB skipE).1 ^ 2 / 2 + γ * (windowTimes t skipB skipE).1 ^ 3 / 3) := by
  obtain ⟨hi, hj, hij, hpar⟩ := ha
  have n1 := nearest_eq t hs _ i hi
  have n2 := nearest_eq t hs _ j hj
  obtain ⟨hil, hie⟩ := List.getElem?_eq_some_iff.mp hi
  obtain ⟨hjl, hje⟩ := List.getElem?_eq_some_iff.mp hj
  have hz : (t.zip com).map Prod.fst = t := List.map_fst_zip (by omega)
  have hzl : (t.zip com).length = t.length := by simp; omega
  obtain ⟨w1, w2, w3, w4⟩ := window_facts (t.zip com) (by rw [hz]; exact hs) i j hij (by rw [hzl]; exact hjl)
  refine ⟨_, rfl, by rw [n1, n2], by rw [w1]; omega, ?_, fun α β γ => ?_⟩
  · rw [← hie, ← hje]
    exact List.pairwise_iff_getElem.mp hs i j hil hjl hij
  · have g1 : (t.zip com)[i]? = some (t[i], com[i]'(by omega)) := by rw [List.getElem?_eq_getElem (by rw [hzl]; exact hil), List.getElem_zip]
    have g2 : (t.zip com)[j]? = some (t[j], com[j]'(by omega)) := by rw [List.getElem?_eq_getElem (by rw [hzl]; exact hjl), List.getElem_zip]
    have := basic_exact α β γ ((j - i) / 2) _ _ _ (by rw [w1]; omega) w2 (w3.trans g1) (w4.trans g2)
    rw [← hie, ← hje]
    exact this

theorem estimate_linear (t com : List ℝ) (skipB skipE : ℝ) :
    estimate t com skipB skipE false = ((linearFit (moment 0 (window (t.zip com) (nearest t (windowTimes t skipB skipE).1) (nearest t (windowTimes t skipB skipE).2)))
      (moment 1 (window (t.zip com) (nearest t (windowTimes t skipB skipE).1) (nearest t (windowTimes t skipB skipE).2))) (windowTimes t skipB skipE).1 (windowTimes t skipB skipE).2).1,
      (linearFit (moment 0 (window (t.zip com) (nearest t (windowTimes t skipB skipE).1) (nearest t (windowTimes t skipB skipE).2)))
      (moment 1 (window (t.zip com) (nearest t (windowTimes t skipB skipE).1) (nearest t (windowTimes t skipB skipE).2))) (windowTimes t skipB skipE).1 (windowTimes t skipB skipE).2).2, 0) := rfl

/-- The fit with acceleration on samples uses the moments over the samples. -/
theorem estimate_accel (t com : List ℝ) (skipB skipE : ℝ) :
    estimate t com skipB skipE true = accelFit (moment 0 (window (t.zip com) (nearest t (windowTimes t skipB skipE).1) (nearest t (windowTimes t skipB skipE).2)))
      (moment 1 (window (t.zip com) (nearest t (windowTimes t skipB skipE).1) (nearest t (windowTimes t skipB skipE).2)))
      (moment 2 (window (t.zip com) (nearest t (windowTimes t skipB skipE).1) (nearest t (windowTimes t skipB skipE).2))) (windowTimes t skipB skipE).1 (windowTimes t skipB skipE).2 := rfl

theorem moment_odd (k : Nat) (L : List (ℝ × ℝ)) (h : L.length % 2 = 1) : moment k L = J L (fun p => p.1 ^ k * p.2) := simps_odd _ L h

/-- Part of C38 for the code with its samples: if the window ends at samples and the number of samples in it is odd, the fit minimises the squared distance
integrated with the rule that the code uses.  What is missing: other windows (for which it is false, `fit_of_rest_is_wrong`), and the fit with acceleration on samples, for which
Simpson's rule is not exact. -/
theorem estimate_optimal_partial (t com : List ℝ) (hs : t.Pairwise (· < ·)) (hl : com.length = t.length) (skipB skipE : ℝ) (i j : Nat) (ha : Aligned t skipB skipE i j) (x v : ℝ) :
    let r := estimate t com skipB skipE false
    sampledMisfit (window (t.zip com) i j) r.1 r.2.1 ≤ sampledMisfit (window (t.zip com) i j) x v := by
  obtain ⟨L, hL, hw, hodd, hlt, hJ⟩ := window_of_aligned t com hs hl skipB skipE i j ha
  intro r
  have hr : r = _ := estimate_linear t com skipB skipE
  rw [hw, moment_odd 0 L hodd, moment_odd 1 L hodd] at hr
  rw [← hL]
  generalize (windowTimes t skipB skipE).1 = a at *
  generalize (windowTimes t skipB skipE).2 = b at *
  have key : ∀ x v, sampledMisfit L x v = J L (fun p => p.2 ^ 2) - 2 * x * J L (fun p => p.1 ^ 0 * p.2) - 2 * v * J L (fun p => p.1 ^ 1 * p.2) +
      ((x ^ 2 * b + 2 * x * v * b ^ 2 / 2 + v ^ 2 * b ^ 3 / 3) - (x ^ 2 * a + 2 * x * v * a ^ 2 / 2 + v ^ 2 * a ^ 3 / 3)) := by
    intro x v
    unfold sampledMisfit
    rw [simps_odd (fun p => (p.2 - (x + v * p.1)) ^ 2) L hodd]
    change J L (fun p => (p.2 - (x + v * p.1)) ^ 2) = _
    have e := hJ (x ^ 2) (2 * x * v) (v ^ 2)
    rw [J_congr L (fun p => (p.2 - (x + v * p.1)) ^ 2) (fun p => (p.2 ^ 2 + ((-(2 * x)) * (p.1 ^ 0 * p.2) + (-(2 * v)) * (p.1 ^ 1 * p.2))) + (x ^ 2 + (2 * x * v) * p.1 + v ^ 2 * p.1 ^ 2)) (fun p _ => by ring),
      J_add, J_add, J_add, J_smul, J_smul, e]
    ring
  rw [key, key]
  have hs := square_nonneg a b (x - r.1) (v - r.2.1) 0 hlt
  have hne : b - a ≠ 0 := by linarith
  generalize J L (fun p => p.1 ^ 0 * p.2) = C0 at *
  generalize J L (fun p => p.1 ^ 1 * p.2) = C1 at *
  have n0 : r.1 * (b - a) + r.2.1 * (b ^ 2 - a ^ 2) / 2 = C0 := by
    rw [hr]
    simp only [linearFit]
    field_simp
    ring
  have n1 : r.1 * (b ^ 2 - a ^ 2) / 2 + r.2.1 * (b ^ 3 - a ^ 3) / 3 = C1 := by
    rw [hr]
    simp only [linearFit]
    field_simp
    ring
  rw [← n0, ← n1]
  generalize r.1 = X at *
  generalize r.2.1 = V at *
  nlinarith [hs]

/-- Part of C38: uniform motion is found exactly, for windows as above. -/
theorem estimate_exact_partial (t : List ℝ) (hs : t.Pairwise (· < ·)) (skipB skipE : ℝ) (i j : Nat) (ha : Aligned t skipB skipE i j) (x v : ℝ) :
    estimate t (t.map fun s => x + v * s) skipB skipE false = (x, v, 0) := by
  obtain ⟨L, hL, hw, hodd, hlt, hJ⟩ := window_of_aligned t (t.map fun s => x + v * s) hs (by simp) skipB skipE i j ha
  have hmem : ∀ p ∈ L, p.2 = x + v * p.1 := by
    intro p hp
    rw [hL] at hp
    have h1 : p ∈ t.zip (t.map fun s => x + v * s) := List.mem_of_mem_take (List.mem_of_mem_drop hp)
    rw [List.zip_map_right] at h1
    obtain ⟨⟨a, b⟩, hab, rfl⟩ := List.mem_map.mp h1
    have : a = b := by
      obtain ⟨n, hn, he⟩ := List.getElem_of_mem hab
      rw [List.getElem_zip] at he
      rw [Prod.mk.injEq] at he
      exact he.1.symm.trans he.2
    simp [this]
  rw [estimate_linear, hw, moment_odd 0 L hodd, moment_odd 1 L hodd]
  have e0 : J L (fun p => p.1 ^ 0 * p.2) = J L (fun p => x + v * p.1 + 0 * p.1 ^ 2) := J_congr L _ _ (fun p hp => by rw [hmem p hp]; ring)
  have e1 : J L (fun p => p.1 ^ 1 * p.2) = J L (fun p => 0 + x * p.1 + v * p.1 ^ 2) := J_congr L _ _ (fun p hp => by rw [hmem p hp]; ring)
  rw [e0, e1, hJ, hJ]
  generalize (windowTimes t skipB skipE).1 = a at *
  generalize (windowTimes t skipB skipE).2 = b at *
  have hne : b - a ≠ 0 := by linarith
  unfold linearFit
  refine Prod.ext ?_ (Prod.ext ?_ rfl) <;> simp only <;> field_simp <;> ring

/-- C38 is false for the code as it is: the integrals are taken between the samples that are nearest to the ends of the window, but the formulas use the ends of the window themselves.
With the default fractions, a center of mass that rests at 1 is found at a place below 0.8 with a velocity above 0.03. -/
theorem fit_of_rest_is_wrong : (estimate [0, 10, 20] [1, 1, 1] (1 / 100) (1 / 10) false).1 < 4 / 5 ∧ 3 / 100 < (estimate [0, 10, 20] [1, 1, 1] (1 / 100) (1 / 10) false).2.1 := by
  have hw : windowTimes [0, 10, 20] (1 / 100) (1 / 10) = (1 / 5, 18) := by
    unfold windowTimes
    refine Prod.ext ?_ ?_ <;> norm_num
  have n1 : nearest [0, 10, 20] (1 / 5) = 0 := by
    unfold nearest
    simp only [List.map_cons, List.map_nil]
    rw [show |(0 : ℝ) - 1 / 5| = 1 / 5 by norm_num, show |(10 : ℝ) - 1 / 5| = 49 / 5 by norm_num, show |(20 : ℝ) - 1 / 5| = 99 / 5 by norm_num]
    simp [argmin]
    norm_num
  have n2 : nearest [0, 10, 20] 18 = 2 := by
    unfold nearest
    simp only [List.map_cons, List.map_nil]
    rw [show |(0 : ℝ) - 18| = 18 by norm_num, show |(10 : ℝ) - 18| = 8 by norm_num, show |(20 : ℝ) - 18| = 2 by norm_num]
    simp [argmin]
    norm_num
  rw [estimate_linear, hw]
  simp only [n1, n2]
  have m0 : moment 0 (window (List.zip [0, 10, 20] [1, 1, 1]) 0 2) = 20 := by
    simp [window, moment, simps, basicSimpson, panel]
    norm_num
  have m1 : moment 1 (window (List.zip [0, 10, 20] [1, 1, 1]) 0 2) = 200 := by
    simp [window, moment, simps, basicSimpson, panel]
    norm_num
  rw [m0, m1]
  unfold linearFit
  constructor <;> norm_num

/-- The windows of the partial theorems exist. -/
example : Aligned [0, 1, 2, 3, 4] (1 / 4) (1 / 4) 1 3 := by
  have h : windowTimes [0, 1, 2, 3, 4] (1 / 4) (1 / 4) = (1, 3) := by
    unfold windowTimes
    refine Prod.ext ?_ ?_ <;> norm_num
  unfold Aligned
  rw [h]
  simp

/-! ## The center of mass -/

theorem zip_get {α β : Type} {l : List α} {m : List β} {n : Nat} {a : α} {b : β} (h1 : l[n]? = some a) (h2 : m[n]? = some b) : (l.zip m)[n]? = some (a, b) :=
  List.getElem?_zip_eq_some.mpr ⟨h1, h2⟩

/-- Two black holes: at each time the center of mass divides the line between the bodies in the ratio of the masses. -/
theorem bbh_spec (h : Horizons) (t : List ℝ) (com : List Vec) (e : comMotion h none none none = .ok (t, com)) :
    t = h.t ∧ com.length = h.t.length ∧ ∀ (n : Nat) (m_A m_B : ℝ) (x_A x_B : Vec), h.m_A[n]? = some m_A → h.m_B[n]? = some m_B → h.x_A[n]? = some x_A → h.x_B[n]? = some x_B → m_A + m_B ≠ 0 →
      ∃ c : Vec, com[n]? = some c ∧ ∀ i, m_A * (c i - x_A i) = m_B * (x_B i - c i) := by
  unfold comMotion bbh at e
  simp only at e
  split_ifs at e with hl
  obtain ⟨l1, l2, l3, l4⟩ := hl
  have e' := Except.ok.inj e
  rw [Prod.mk.injEq] at e'
  obtain ⟨rfl, rfl⟩ := e'
  refine ⟨rfl, by simp; omega, ?_⟩
  intro n m_A m_B x_A x_B h1 h2 h3 h4 hne
  refine ⟨weighted (m_A, x_A) (m_B, x_B), ?_, fun i => ?_⟩
  · rw [List.getElem?_zipWith, zip_get h1 h3, zip_get h2 h4]
  · simp only [weighted]
    field_simp
    ring

/-- For two black holes the masses that are passed have no effect, although the documentation says that the masses are read from the file only if they are not given. -/
theorem bbh_masses_ignored (h : Horizons) (m_A m_B : Option ℝ) : comMotion h none m_A m_B = comMotion h none none none := rfl

/-- Neutron stars: times that differ, and masses that are not given, are errors. -/
theorem matter_errors (h : Horizons) (a b : List ℝ × List Vec) (m_A m_B : Option ℝ) :
    (a.1.length = b.1.length → a.1 ≠ b.1 → comMotion h (some { ns1 := some a, ns2 := some b }) m_A m_B = .error .valueError) ∧
    (comMotion h (some { ns1 := some a, ns2 := some (a.1, b.2) }) none m_B = .error .valueError) ∧
    (comMotion h (some { ns1 := some a, ns2 := some (a.1, b.2) }) m_A none = .error .valueError) ∧
    (comMotion h (some { ns1 := none, ns2 := some b }) m_A m_B = .error .other) ∧
    (h.t.length < a.1.length → comMotion h (some { ns1 := some a, ns2 := none }) m_A m_B = .error .valueError) ∧
    (h.t.take a.1.length ≠ a.1 → comMotion h (some { ns1 := some a, ns2 := none }) m_A m_B = .error .valueError) ∧
    (comMotion h (some { ns1 := some a, ns2 := none }) m_A none = .error .valueError) := by
  refine ⟨?_, ?_, ?_, rfl, ?_, ?_, ?_⟩
  · intro h1 h2
    show nsns a b m_A m_B = _
    unfold nsns
    rw [if_neg (not_not.mpr h1), if_pos h2]
  · show nsns a (a.1, b.2) none m_B = _
    unfold nsns
    rw [if_neg (not_not.mpr rfl), if_neg (not_not.mpr rfl)]
  · show nsns a (a.1, b.2) m_A none = _
    unfold nsns
    rw [if_neg (not_not.mpr rfl), if_neg (not_not.mpr rfl)]
    cases m_A <;> rfl
  · intro h1
    show bhns h a m_A m_B = _
    unfold bhns
    simp only
    rw [if_pos h1]
  · intro h1
    show bhns h a m_A m_B = _
    unfold bhns
    simp only
    split_ifs <;> rfl
  · show bhns h a m_A none = _
    unfold bhns
    simp only
    split_ifs <;> rfl

/-- Neutron stars: times and the center of mass are in units of the total mass. -/
theorem nsns_spec (h : Horizons) (s : List ℝ) (xa xb : List Vec) (M_A M_B : ℝ) (hM : M_A + M_B ≠ 0) (t : List ℝ) (com : List Vec)
    (e : comMotion h (some { ns1 := some (s, xa), ns2 := some (s, xb) }) (some M_A) (some M_B) = .ok (t, com)) :
    t = s.map (· / (M_A + M_B)) ∧ ∀ n x_A x_B, n < s.length → xa[n]? = some x_A → xb[n]? = some x_B →
      ∃ c, com[n]? = some c ∧ ∀ i, M_A * ((M_A + M_B) * c i - x_A i) = M_B * (x_B i - (M_A + M_B) * c i) := by
  have hb : ∀ M : ℝ, broadcast s.length [M] = .ok (List.replicate s.length M) := by
    intro M
    unfold broadcast
    split_ifs with h1
    · simp at h1
      rw [← h1]
      rfl
    · rfl
  change nsns (s, xa) (s, xb) (some M_A) (some M_B) = _ at e
  unfold nsns at e
  rw [if_neg (not_not.mpr rfl), if_neg (not_not.mpr rfl)] at e
  change finish s [M_A] xa [M_B] xb = _ at e
  unfold finish at e
  rw [hb, hb, ok_bind, ok_bind] at e
  have e' := Except.ok.inj e
  rw [Prod.mk.injEq] at e'
  obtain ⟨rfl, rfl⟩ := e'
  refine ⟨?_, ?_⟩
  · apply List.ext_getElem?
    intro n
    simp only [List.getElem?_zipWith, List.getElem?_map, List.getElem?_replicate]
    by_cases hn : n < s.length
    · rw [List.getElem?_eq_getElem hn]
      simp [hn]
    · rw [List.getElem?_eq_none (by omega)]
      simp
  · intro n x_A x_B hn h1 h2
    refine ⟨fun i => weighted (M_A, x_A) (M_B, x_B) i / (M_A + M_B), ?_, fun i => ?_⟩
    · simp only [List.getElem?_zipWith, List.getElem?_replicate, if_pos hn]
      rw [zip_get (a := M_A) (by rw [List.getElem?_replicate, if_pos hn]) h1, zip_get (a := M_B) (by rw [List.getElem?_replicate, if_pos hn]) h2]
    · simp only [weighted]
      field_simp
      ring

example : comMotion { t := [0], m_A := [1], x_A := [![0, 0, 0]], m_B := [3], x_B := [![4, 0, 0]] } none none none = .ok ([0], [weighted (1, ![0, 0, 0]) (3, ![4, 0, 0])]) := rfl

end Verif.Props.ComMotion
