import Verif.Model.Transition
import Verif.Spec.Transition
import Mathlib.Analysis.SpecialFunctions.ExpDeriv
import Mathlib.Analysis.Calculus.Deriv.Inv
import Mathlib.Analysis.Calculus.Deriv.Slope
import Mathlib.Analysis.Complex.ExponentialBounds
import Mathlib.Data.List.Sort
import Mathlib.Analysis.Calculus.FDeriv.Basic
import Mathlib.Topology.Order.IntermediateValue

/-!
# Lemmas about the transition functions
-/

namespace Verif.Transition
open Verif Verif.Spec.Transition

/-- What the loops write, as a function of one number. -/
noncomputable def value (x0 x1 y0 y1 x : ℝ) : ℝ := if x ≤ x0 then y0 else if x < x1 then inside x0 x1 y0 y1 x else y1

noncomputable def derivative (x0 x1 y0 y1 x : ℝ) : ℝ := if x ≤ x0 then 0 else if x < x1 then insideDerivative x0 x1 y0 y1 x else 0

/-- A loop over a sorted array with a condition that holds on an initial part. -/
theorem loop_sorted (p : ℝ → Prop) [DecidablePred p] (body : ℝ → ℝ) (hp : ∀ x y, x ≤ y → p y → p x) (l : List ℝ) (hl : l.Pairwise (· ≤ ·))
    (hex : ∃ x ∈ l, ¬ p x) :
    ∃ a b, l = a ++ b ∧ loop p body l = .ok (a.map body, b) ∧ (∀ x ∈ a, p x) ∧ (∀ x ∈ b, ¬ p x) ∧ b.Pairwise (· ≤ ·) := by
  induction l with
  | nil => obtain ⟨x, hx, _⟩ := hex; simp at hx
  | cons x xs ih =>
    rw [List.pairwise_cons] at hl
    by_cases hx : p x
    · obtain ⟨a, b, h1, h2, h3, h4, h5⟩ := ih hl.2 (by
        obtain ⟨y, hy, hny⟩ := hex
        rcases List.mem_cons.mp hy with rfl | hy
        · exact absurd hx hny
        · exact ⟨y, hy, hny⟩)
      refine ⟨x :: a, b, by rw [h1]; rfl, ?_, ?_, h4, h5⟩
      · rw [loop, if_pos hx, h2]; rfl
      · intro y hy
        rcases List.mem_cons.mp hy with rfl | hy
        · exact hx
        · exact h3 y hy
    · refine ⟨[], x :: xs, rfl, by rw [loop, if_neg hx]; rfl, by simp, ?_, List.pairwise_cons.mpr hl⟩
      intro y hy hpy
      rcases List.mem_cons.mp hy with rfl | hy
      · exact hx hpy
      · exact hx (hp _ _ (hl.1 y hy) hpy)

/-- A loop whose condition always holds runs off the end. -/
theorem loop_all (p : ℝ → Prop) [DecidablePred p] (body : ℝ → ℝ) (l : List ℝ) (h : ∀ x ∈ l, p x) : loop p body l = .error .outOfBounds := by
  induction l with
  | nil => rfl
  | cons x xs ih =>
    rw [loop, if_pos (h x (by simp)), ih (fun y hy => h y (List.mem_cons_of_mem _ hy))]; rfl

theorem loop_total (p : ℝ → Prop) [DecidablePred p] (body : ℝ → ℝ) (l : List ℝ) (a b : List ℝ) (h : loop p body l = .ok (a, b)) :
    ∀ x ∈ b, x ∈ l := by
  induction l generalizing a with
  | nil => cases h
  | cons x xs ih =>
    rw [loop] at h
    split at h
    · cases hl : loop p body xs with
      | error e => rw [hl] at h; cases h
      | ok r =>
        rw [hl] at h
        cases h
        intro y hy
        exact List.mem_cons_of_mem _ (ih r.1 (by rw [hl]) y hy)
    · cases h; exact fun y hy => hy

theorem loop_error (p : ℝ → Prop) [DecidablePred p] (body : ℝ → ℝ) (l : List ℝ) (e : PyErr) (h : loop p body l = .error e) :
    e = .outOfBounds := by
  induction l with
  | nil => cases h; rfl
  | cons y ys ih =>
    rw [loop] at h
    split at h
    · cases hq : loop p body ys with
      | error e' => rw [hq] at h; cases h; exact ih hq
      | ok r => rw [hq] at h; cases h
    · cases h

theorem maxexp_pos : 0 < maxexp := by
  unfold maxexp
  have := Real.log_pos (show (1 : ℝ) < 2 by norm_num)
  positivity

theorem maxexp_gt : 700 < maxexp := by
  unfold maxexp
  have := Real.log_two_gt_d9
  linarith

theorem exponent_eq {x0 x1 x : ℝ} (h0 : x0 < x) (h1 : x < x1) :
    exponent x0 x1 x = (x1 - x0) / (x - x0) - (x1 - x0) / (x1 - x) := by
  unfold exponent
  have h2 : x - x0 ≠ 0 := by linarith
  have h3 : x1 - x ≠ 0 := by linarith
  have h4 : x1 - x0 ≠ 0 := by linarith
  have h5 : 1 - (x - x0) / (x1 - x0) = (x1 - x) / (x1 - x0) := by field_simp; ring
  simp only [h5, one_div_div]

theorem exponent_anti {x0 x1 x y : ℝ} (h0 : x0 < x) (hxy : x ≤ y) (h1 : y < x1) : exponent x0 x1 y ≤ exponent x0 x1 x := by
  rw [exponent_eq h0 (by linarith), exponent_eq (by linarith) h1]
  have h4 : 0 ≤ x1 - x0 := by linarith
  have h5 : (x1 - x0) / (y - x0) ≤ (x1 - x0) / (x - x0) := div_le_div_of_nonneg_left h4 (by linarith) (by linarith)
  have h6 : (x1 - x0) / (x1 - x) ≤ (x1 - x0) / (x1 - y) := div_le_div_of_nonneg_left h4 (by linarith) (by linarith)
  linarith

theorem exponent_strictAnti {x0 x1 x y : ℝ} (h0 : x0 < x) (hxy : x < y) (h1 : y < x1) : exponent x0 x1 y < exponent x0 x1 x := by
  rw [exponent_eq h0 (by linarith), exponent_eq (by linarith) h1]
  have h4 : 0 < x1 - x0 := by linarith
  have h5 : (x1 - x0) / (y - x0) < (x1 - x0) / (x - x0) := div_lt_div_of_pos_left h4 (by linarith) (by linarith)
  have h6 : (x1 - x0) / (x1 - x) < (x1 - x0) / (x1 - y) := div_lt_div_of_pos_left h4 (by linarith) (by linarith)
  linarith

theorem exponent_reflect {x0 x1 x : ℝ} (h0 : x0 < x) (h1 : x < x1) : exponent x0 x1 (x0 + x1 - x) = -exponent x0 x1 x := by
  rw [exponent_eq h0 h1, exponent_eq (by linarith) (by linarith)]
  rw [show x0 + x1 - x - x0 = x1 - x by ring, show x1 - (x0 + x1 - x) = x - x0 by ring]; ring

/-- The fraction `1 / (1 + exp u)` lies strictly between 0 and 1. -/
theorem frac_pos (u : ℝ) : 0 < 1 / (1 + Real.exp u) := by positivity
theorem frac_lt (u : ℝ) : 1 / (1 + Real.exp u) < 1 := by
  rw [div_lt_one (by positivity)]; linarith [Real.exp_pos u]
theorem frac_anti {u v : ℝ} (h : u ≤ v) : 1 / (1 + Real.exp v) ≤ 1 / (1 + Real.exp u) := by
  have := Real.exp_le_exp.mpr h
  exact one_div_le_one_div_of_le (by positivity) (by linarith)

/-- The share of `y1` in the value. -/
noncomputable def share (x0 x1 x : ℝ) : ℝ :=
  if x ≤ x0 then 0 else if x < x1 then (if exponent x0 x1 x ≥ maxexp then 0 else 1 / (1 + Real.exp (exponent x0 x1 x))) else 1

theorem value_share (x0 x1 y0 y1 x : ℝ) : value x0 x1 y0 y1 x = y0 + (y1 - y0) * share x0 x1 x := by
  unfold value share inside
  split_ifs <;> ring

theorem share_nonneg (x0 x1 x : ℝ) : 0 ≤ share x0 x1 x := by
  unfold share
  split_ifs
  · exact le_rfl
  · exact le_rfl
  · exact (frac_pos _).le
  · exact zero_le_one

theorem share_le_one (x0 x1 x : ℝ) : share x0 x1 x ≤ 1 := by
  unfold share
  split_ifs
  · exact zero_le_one
  · exact zero_le_one
  · exact (frac_lt _).le
  · exact le_rfl

theorem share_mono (x0 x1 : ℝ) : Monotone (share x0 x1) := by
  intro x y hxy
  by_cases h1 : x ≤ x0
  · rw [share, if_pos h1]; exact share_nonneg _ _ _
  · by_cases h2 : y < x1
    · have e := exponent_anti (not_le.mp h1) hxy h2
      have hy : ¬ y ≤ x0 := fun h => h1 (hxy.trans h)
      have hx : x < x1 := lt_of_le_of_lt hxy h2
      unfold share
      rw [if_neg h1, if_pos hx, if_neg hy, if_pos h2]
      split_ifs with ha hb hb
      · exact le_rfl
      · exact (frac_pos _).le
      · exact absurd (le_trans hb e) ha
      · exact frac_anti e
    · have : share x0 x1 y = 1 := by unfold share; rw [if_neg (by linarith), if_neg h2]
      rw [this]; exact share_le_one _ _ _

/-- The derivative inside. -/
theorem hasDerivAt_inside {x0 x1 y0 y1 x : ℝ} (h0 : x0 < x) (h1 : x < x1) (he : exponent x0 x1 x < maxexp) :
    HasDerivAt (fun x => y0 + (y1 - y0) / (1 + Real.exp (exponent x0 x1 x))) (insideDerivative x0 x1 y0 y1 x) x := by
  have hd : x1 - x0 ≠ 0 := by linarith
  have ht : (x - x0) / (x1 - x0) ≠ 0 := div_ne_zero (by linarith) hd
  have ht1 : 1 - (x - x0) / (x1 - x0) ≠ 0 := by
    have : 1 - (x - x0) / (x1 - x0) = (x1 - x) / (x1 - x0) := by field_simp; ring
    rw [this]; exact div_ne_zero (by linarith) hd
  have dtau : HasDerivAt (fun x => (x - x0) / (x1 - x0)) (1 / (x1 - x0)) x := ((hasDerivAt_id x).sub_const x0).div_const _
  have de : HasDerivAt (exponent x0 x1) ((-1 / ((x - x0) / (x1 - x0)) ^ 2 - 1 / (1 - (x - x0) / (x1 - x0)) ^ 2) * (1 / (x1 - x0))) x := by
    have d1 := (hasDerivAt_const x (1 : ℝ)).div dtau ht
    have d2 := (hasDerivAt_const x (1 : ℝ)).div (dtau.const_sub 1) ht1
    have := d1.sub d2
    refine this.congr_deriv ?_
    field_simp
    ring
  have dE := (de.exp).const_add 1
  have hne : (1 : ℝ) + Real.exp (exponent x0 x1 x) ≠ 0 := by positivity
  have := ((hasDerivAt_const x (y1 - y0)).div dE hne).const_add y0
  refine this.congr_deriv ?_
  unfold insideDerivative
  simp only
  rw [if_neg (not_le.mpr he)]
  have : 1 / ((x - x0) / (x1 - x0)) - 1 / (1 - (x - x0) / (x1 - x0)) = exponent x0 x1 x := rfl
  rw [this]
  ring

theorem exponent_continuousAt {x0 x1 x : ℝ} (h0 : x0 < x) (h1 : x < x1) : ContinuousAt (exponent x0 x1) x := by
  have hd : x1 - x0 ≠ 0 := by linarith
  have ht : (x - x0) / (x1 - x0) ≠ 0 := div_ne_zero (by linarith) hd
  have ht1 : 1 - (x - x0) / (x1 - x0) ≠ 0 := by
    have : 1 - (x - x0) / (x1 - x0) = (x1 - x) / (x1 - x0) := by field_simp; ring
    rw [this]; exact div_ne_zero (by linarith) hd
  unfold exponent
  have dtau : ContinuousAt (fun x => (x - x0) / (x1 - x0)) x := (continuousAt_id.sub continuousAt_const).div_const _
  exact (continuousAt_const.div dtau ht).sub (continuousAt_const.div (continuousAt_const.sub dtau) ht1)

/-- Close to `x0` the exponent exceeds the cutoff. -/
theorem near_start {x0 x1 x : ℝ} (h0 : x0 < x) (hx : x ≤ x0 + (x1 - x0) / (maxexp + 2)) (h01 : x0 < x1) : maxexp ≤ exponent x0 x1 x := by
  have hm := maxexp_pos
  have hL : 0 < x1 - x0 := by linarith
  have hhalf : (x1 - x0) / (maxexp + 2) ≤ (x1 - x0) / 2 := div_le_div_of_nonneg_left hL.le (by norm_num) (by linarith)
  rw [exponent_eq h0 (by linarith)]
  have e1 : maxexp + 2 ≤ (x1 - x0) / (x - x0) := by
    rw [le_div_iff₀ (by linarith)]
    have : x - x0 ≤ (x1 - x0) / (maxexp + 2) := by linarith
    rw [le_div_iff₀ (by linarith)] at this
    linarith
  have e2 : (x1 - x0) / (x1 - x) ≤ 2 := by
    rw [div_le_iff₀ (by linarith)]; linarith
  linarith

/-- Close to `x1` the value is close to `y1`, to second order. -/
theorem near_end {x0 x1 x : ℝ} (h01 : x0 < x1) (hm : (x0 + x1) / 2 ≤ x) :
    |share x0 x1 x - 1| ≤ 2 * Real.exp 2 / (x1 - x0) ^ 2 * |x - x1| ^ 2 := by
  have hL : 0 < x1 - x0 := by linarith
  by_cases h1 : x < x1
  · have h0 : ¬ x ≤ x0 := by linarith
    have hs : 0 < x1 - x := by linarith
    have e1 : (x1 - x0) / (x - x0) ≤ 2 := by rw [div_le_iff₀ (by linarith)]; linarith
    have e2 : 2 ≤ (x1 - x0) / (x1 - x) := by rw [le_div_iff₀ hs]; linarith
    have hu : exponent x0 x1 x ≤ 2 - (x1 - x0) / (x1 - x) := by rw [exponent_eq (not_le.mp h0) h1]; linarith
    have hm := maxexp_pos
    have : share x0 x1 x = 1 / (1 + Real.exp (exponent x0 x1 x)) := by
      unfold share; rw [if_neg h0, if_pos h1, if_neg]; intro h; linarith
    rw [this]
    generalize exponent x0 x1 x = u at hu
    have hp := Real.exp_pos u
    have e3 : 1 / (1 + Real.exp u) - 1 = -(Real.exp u / (1 + Real.exp u)) := by field_simp; ring
    rw [e3, abs_neg, abs_of_pos (by positivity)]
    have e4 : Real.exp u / (1 + Real.exp u) ≤ Real.exp u := div_le_self hp.le (by linarith)
    have e5 : Real.exp u ≤ Real.exp (2 - (x1 - x0) / (x1 - x)) := Real.exp_le_exp.mpr hu
    have hq : 0 < (x1 - x0) / (x1 - x) := div_pos hL hs
    have e6 : ((x1 - x0) / (x1 - x)) ^ 2 / 2 ≤ Real.exp ((x1 - x0) / (x1 - x)) := by
      have := Real.quadratic_le_exp_of_nonneg hq.le
      linarith
    have e7 : Real.exp (2 - (x1 - x0) / (x1 - x)) ≤ Real.exp 2 / (((x1 - x0) / (x1 - x)) ^ 2 / 2) := by
      rw [Real.exp_sub]
      exact div_le_div_of_nonneg_left (Real.exp_pos _).le (by positivity) e6
    refine (e4.trans (e5.trans e7)).trans (le_of_eq ?_)
    rw [abs_of_neg (by linarith : x - x1 < 0)]
    have hne : x1 - x ≠ 0 := hs.ne'
    have hne' : x1 - x0 ≠ 0 := hL.ne'
    rw [show -(x - x1) = x1 - x by ring]
    field_simp
  · have : share x0 x1 x = 1 := by
      unfold share; rw [if_neg (by linarith), if_neg h1]
    rw [this, sub_self, abs_zero]
    positivity

open Filter Topology Asymptotics in
/-- The derivative of the tabulated function. -/
theorem hasDerivAt_value {x0 x1 y0 y1 z : ℝ} (h01 : x0 < x1) (hne : x0 < z → z < x1 → exponent x0 x1 z ≠ maxexp) :
    HasDerivAt (value x0 x1 y0 y1) (derivative x0 x1 y0 y1 z) z := by
  have hm := maxexp_pos
  by_cases a0 : z ≤ x0
  · have e : derivative x0 x1 y0 y1 z = 0 := by unfold derivative; rw [if_pos a0]
    rw [e]
    refine (hasDerivAt_const z y0).congr_of_eventuallyEq ?_
    have hlt : z < x0 + (x1 - x0) / (maxexp + 2) := by
      have : 0 < (x1 - x0) / (maxexp + 2) := div_pos (by linarith) (by linarith)
      linarith
    filter_upwards [eventually_lt_nhds hlt] with x hx
    unfold value
    by_cases h0 : x ≤ x0
    · rw [if_pos h0]
    · rw [if_neg h0]
      have hhalf : (x1 - x0) / (maxexp + 2) ≤ (x1 - x0) / 2 := div_le_div_of_nonneg_left (by linarith) (by norm_num) (by linarith)
      rw [if_pos (by linarith)]
      unfold inside
      rw [if_pos (near_start (not_le.mp h0) hx.le h01)]
  by_cases a1 : z < x1
  · have n0 := not_le.mp a0
    have e : derivative x0 x1 y0 y1 z = insideDerivative x0 x1 y0 y1 z := by unfold derivative; rw [if_neg a0, if_pos a1]
    rw [e]
    rcases lt_or_gt_of_ne (hne n0 a1) with hlt | hgt
    · refine (hasDerivAt_inside n0 a1 hlt).congr_of_eventuallyEq ?_
      filter_upwards [eventually_gt_nhds n0, eventually_lt_nhds a1, (exponent_continuousAt n0 a1).eventually_lt continuousAt_const hlt] with x g0 g1 g2
      unfold value inside
      rw [if_neg (not_le.mpr g0), if_pos g1, if_neg (not_le.mpr g2)]
    · have e' : insideDerivative x0 x1 y0 y1 z = 0 := by unfold insideDerivative; simp only; rw [if_pos hgt.le]
      rw [e']
      refine (hasDerivAt_const z y0).congr_of_eventuallyEq ?_
      filter_upwards [eventually_gt_nhds n0, eventually_lt_nhds a1, continuousAt_const.eventually_lt (exponent_continuousAt n0 a1) hgt] with x g0 g1 g2
      unfold value inside
      rw [if_neg (not_le.mpr g0), if_pos g1, if_pos g2.le]
  · have e : derivative x0 x1 y0 y1 z = 0 := by unfold derivative; rw [if_neg a0, if_neg a1]
    rw [e]
    rcases eq_or_lt_of_le (not_lt.mp a1) with heq | hlt
    · subst heq
      have hO : (fun x => value x0 x1 y0 y1 x - y1) =O[𝓝[Set.univ] x1] fun x => ‖x - x1‖ ^ 2 := by
        rw [nhdsWithin_univ]
        apply IsBigO.of_bound (|y1 - y0| * (2 * Real.exp 2 / (x1 - x0) ^ 2))
        filter_upwards [eventually_gt_nhds (show (x0 + x1) / 2 < x1 by linarith)] with x hx
        have hv : value x0 x1 y0 y1 x - y1 = (y1 - y0) * (share x0 x1 x - 1) := by rw [value_share]; ring
        rw [hv, Real.norm_eq_abs, Real.norm_eq_abs, Real.norm_eq_abs, abs_mul, abs_of_nonneg (by positivity : 0 ≤ |x - x1| ^ 2), mul_assoc]
        exact mul_le_mul_of_nonneg_left (near_end h01 hx.le) (abs_nonneg _)
      have hf := (hO.hasFDerivWithinAt (𝕜 := ℝ) (Set.mem_univ _) (by norm_num)).hasFDerivAt_of_univ
      have hd := hf.hasDerivAt.add_const y1
      simpa using hd
    · refine (hasDerivAt_const z y1).congr_of_eventuallyEq ?_
      filter_upwards [eventually_gt_nhds hlt] with x hx
      unfold value
      rw [if_neg (by linarith), if_neg (by linarith)]

open Filter Topology in
/-- The jump at the cutoff. -/
theorem value_jump {x0 x1 y0 y1 : ℝ} (h01 : x0 < x1) (hy : y0 ≠ y1) : ∃ z, x0 < z ∧ z < x1 ∧ ¬ ContinuousAt (value x0 x1 y0 y1) z := by
  have hm := maxexp_pos
  set a := x0 + (x1 - x0) / (maxexp + 2) with ha
  set b := (x0 + x1) / 2 with hb
  have hpos : 0 < (x1 - x0) / (maxexp + 2) := div_pos (by linarith) (by linarith)
  have hhalf : (x1 - x0) / (maxexp + 2) ≤ (x1 - x0) / 2 := div_le_div_of_nonneg_left (by linarith) (by norm_num) (by linarith)
  have h0a : x0 < a := by linarith
  have hab : a ≤ b := by linarith
  have hb1 : b < x1 := by linarith
  have hcont : ContinuousOn (exponent x0 x1) (Set.Icc a b) := fun x hx =>
    (exponent_continuousAt (lt_of_lt_of_le h0a hx.1) (lt_of_le_of_lt hx.2 hb1)).continuousWithinAt
  have hba : exponent x0 x1 b = 0 := by
    rw [exponent_eq (by linarith) hb1, show b - x0 = (x1 - x0) / 2 by rw [hb]; ring, show x1 - b = (x1 - x0) / 2 by rw [hb]; ring]; ring
  obtain ⟨z, hz, hez⟩ := intermediate_value_Icc' hab hcont ⟨by rw [hba]; exact hm.le, near_start h0a le_rfl h01⟩
  have z0 : x0 < z := lt_of_lt_of_le h0a hz.1
  have z1 : z < x1 := lt_of_le_of_lt hz.2 hb1
  refine ⟨z, z0, z1, fun hc => ?_⟩
  have hv : value x0 x1 y0 y1 z = y0 := by
    unfold value inside; rw [if_neg (not_le.mpr z0), if_pos z1, if_pos hez.ge]
  have hlim : Tendsto (fun x => y0 + (y1 - y0) / (1 + Real.exp (exponent x0 x1 x))) (𝓝[>] z) (𝓝 y0) := by
    have h1 : Tendsto (value x0 x1 y0 y1) (𝓝[>] z) (𝓝 y0) := by
      have := hc.tendsto; rw [hv] at this; exact this.mono_left nhdsWithin_le_nhds
    refine h1.congr' ?_
    filter_upwards [self_mem_nhdsWithin, nhdsWithin_le_nhds (eventually_lt_nhds z1)] with x hx hx1
    have hx : z < x := hx
    have := exponent_strictAnti z0 hx hx1
    unfold value inside
    rw [if_neg (by linarith), if_pos hx1, if_neg (by intro h; linarith)]
  have hlim' : Tendsto (fun x => y0 + (y1 - y0) / (1 + Real.exp (exponent x0 x1 x))) (𝓝[>] z)
      (𝓝 (y0 + (y1 - y0) / (1 + Real.exp (exponent x0 x1 z)))) := by
    have hc' : ContinuousAt (fun x => y0 + (y1 - y0) / (1 + Real.exp (exponent x0 x1 x))) z := by
      have he := exponent_continuousAt z0 z1
      exact continuousAt_const.add (continuousAt_const.div (continuousAt_const.add (Real.continuous_exp.continuousAt.comp he)) (by positivity))
    exact hc'.tendsto.mono_left nhdsWithin_le_nhds
  have := tendsto_nhds_unique hlim hlim'
  have h2 : (y1 - y0) / (1 + Real.exp (exponent x0 x1 z)) = 0 := by linarith
  rcases div_eq_zero_iff.mp h2 with h | h
  · exact hy (by linarith)
  · have := Real.exp_pos (exponent x0 x1 z); linarith

end Verif.Transition
