import Verif.Model.MergerZoom
import Mathlib.Topology.Order.OrderClosed
import Mathlib.Topology.Instances.Real.Lemmas
import Mathlib.Tactic.Linarith
import Mathlib.Tactic.FieldSimp
import Mathlib.Tactic.NormNum
import Mathlib.Tactic.Ring

/-!
# C86: the `merger_zoom` scale
-/

namespace Verif.Props.MergerZoom
open Verif Verif.MergerZoom

/-! ## Specification -/

/-- The time since `t_merger` that counts as merger at time `a`: 0 before, at most the length of the merger. -/
noncomputable def inMerger (c : Scale) (a : ℝ) : ℝ := min (max (a - c.tMerger) 0) (c.tRingdown - c.tMerger)

/-! ## Proofs -/

/-- C86.  The place of a time on the axis is the time, with the part that falls in the merger counted `merger_stretch` times. -/
theorem forward_eq (c : Scale) (h : c.tMerger ≤ c.tRingdown) (a : ℝ) : forward c a = a + (c.stretch - 1) * inMerger c a := by
  unfold forward piecewise inMerger
  simp only [List.foldl]
  by_cases h1 : a < c.tMerger
  · have h2 : ¬ a ≥ c.tRingdown := by intro h'; linarith
    have h3 : ¬ (a ≥ c.tMerger ∧ a < c.tRingdown) := by rintro ⟨h', -⟩; linarith
    rw [if_neg h2, if_neg h3, if_pos h1, max_eq_right (by linarith), min_eq_left (by linarith)]
    ring
  · by_cases h2 : a < c.tRingdown
    · rw [if_neg (by intro h'; linarith), if_pos ⟨by linarith, h2⟩, max_eq_left (by linarith), min_eq_left (by linarith)]
      ring
    · rw [if_pos (by linarith), max_eq_left (by linarith), min_eq_right (by linarith)]
      ring

/-- C86.  The scale is continuous. -/
theorem forward_continuous (c : Scale) (h : c.tMerger ≤ c.tRingdown) : Continuous (forward c) := by
  have : forward c = fun a => a + (c.stretch - 1) * inMerger c a := funext (forward_eq c h)
  rw [this]
  unfold inMerger
  fun_prop

/-- C86.  Later times are further along the axis. -/
theorem forward_strictMono (c : Scale) (h : c.tMerger ≤ c.tRingdown) (hs : 0 < c.stretch) : StrictMono (forward c) := by
  intro a b hab
  rw [forward_eq c h, forward_eq c h]
  have h1 : inMerger c a ≤ inMerger c b := min_le_min_right _ (max_le_max_right _ (by linarith))
  have h2 : inMerger c b ≤ inMerger c a + (b - a) := by
    unfold inMerger
    rcases le_total (max (a - c.tMerger) 0) (c.tRingdown - c.tMerger) with h3 | h3
    · rw [min_eq_left h3]
      refine (min_le_left _ _).trans (max_le ?_ ?_)
      · have := le_max_left (a - c.tMerger) 0; linarith
      · have := le_max_right (a - c.tMerger) 0; linarith
    · rw [min_eq_right h3]
      exact (min_le_right _ _).trans (by linarith)
  rcases eq_or_lt_of_le h1 with h3 | h3
  · rw [h3]; linarith
  · have := mul_pos hs (sub_pos.mpr h3)
    nlinarith

/-- C86.  The inverse of the scale takes every place on the axis to the time that is there. -/
theorem backward_forward (c : Scale) (h : c.tMerger ≤ c.tRingdown) (hs : 0 < c.stretch) (a : ℝ) : backward c (forward c a) = a := by
  unfold forward backward piecewise
  simp only [List.foldl]
  have e : c.stretch * c.tRingdown - (c.stretch - 1) * c.tMerger = c.tMerger + c.stretch * (c.tRingdown - c.tMerger) := by ring
  have hp : 0 ≤ c.stretch * (c.tRingdown - c.tMerger) := mul_nonneg hs.le (by linarith)
  by_cases h1 : a < c.tMerger
  · rw [if_neg (show ¬ a ≥ c.tRingdown by intro h'; linarith), if_neg (show ¬ (a ≥ c.tMerger ∧ a < c.tRingdown) by rintro ⟨h', -⟩; linarith), if_pos h1,
      if_neg (by rw [e]; intro h'; linarith), if_neg (by rintro ⟨h', -⟩; linarith), if_pos h1]
  · by_cases h2 : a < c.tRingdown
    · rw [if_neg (show ¬ a ≥ c.tRingdown by intro h'; linarith), if_pos (show a ≥ c.tMerger ∧ a < c.tRingdown from ⟨by linarith, h2⟩)]
      have q1 : 0 ≤ c.stretch * (a - c.tMerger) := mul_nonneg hs.le (by linarith)
      have q2 : c.stretch * (a - c.tMerger) < c.stretch * (c.tRingdown - c.tMerger) := mul_lt_mul_of_pos_left (by linarith) hs
      rw [if_neg (by rw [e]; intro h'; linarith), if_pos ⟨by linarith, by linarith⟩]
      field_simp
      ring
    · rw [if_pos (show a ≥ c.tRingdown by linarith), if_pos (by linarith)]
      ring

/-- C86.  And every place on the axis is the place of the time that the inverse gives. -/
theorem forward_backward (c : Scale) (h : c.tMerger ≤ c.tRingdown) (hs : 0 < c.stretch) (f : ℝ) : forward c (backward c f) = f := by
  have hp : 0 ≤ c.stretch * (c.tRingdown - c.tMerger) := mul_nonneg hs.le (by linarith)
  have e : c.stretch * c.tRingdown - (c.stretch - 1) * c.tMerger = c.tMerger + c.stretch * (c.tRingdown - c.tMerger) := by ring
  have key : ∃ a, forward c a = f := by
    by_cases h1 : f < c.tMerger
    · refine ⟨f, ?_⟩
      rw [forward_eq c h]; unfold inMerger
      rw [max_eq_right (by linarith), min_eq_left (by linarith)]; ring
    · by_cases h2 : f < c.tMerger + c.stretch * (c.tRingdown - c.tMerger)
      · refine ⟨c.tMerger + (f - c.tMerger) / c.stretch, ?_⟩
        have q1 : 0 ≤ (f - c.tMerger) / c.stretch := div_nonneg (by linarith) hs.le
        have q2 : (f - c.tMerger) / c.stretch ≤ c.tRingdown - c.tMerger := by rw [div_le_iff₀ hs]; linarith
        rw [forward_eq c h]; unfold inMerger
        rw [max_eq_left (by linarith), min_eq_left (by linarith)]
        field_simp
        ring
      · refine ⟨f - (c.stretch - 1) * (c.tRingdown - c.tMerger), ?_⟩
        rw [forward_eq c h]; unfold inMerger
        rw [max_eq_left (by nlinarith), min_eq_right (by nlinarith)]; ring
  obtain ⟨a, rfl⟩ := key
  rw [backward_forward c h hs]

/-- C86.  Before the merger and after it, lengths on the axis are times; in the merger they are `merger_stretch` times as long. -/
theorem lengths (c : Scale) (h : c.tMerger ≤ c.tRingdown) (a b : ℝ) :
    (a ≤ c.tMerger → b ≤ c.tMerger → forward c b - forward c a = b - a) ∧
    (c.tMerger ≤ a → a ≤ c.tRingdown → c.tMerger ≤ b → b ≤ c.tRingdown → forward c b - forward c a = c.stretch * (b - a)) ∧
    (c.tRingdown ≤ a → c.tRingdown ≤ b → forward c b - forward c a = b - a) := by
  rw [forward_eq c h, forward_eq c h]
  unfold inMerger
  refine ⟨?_, ?_, ?_⟩
  · intro h1 h2
    rw [max_eq_right (by linarith), min_eq_left (by linarith), max_eq_right (by linarith), min_eq_left (by linarith)]; ring
  · intro h1 h2 h3 h4
    rw [max_eq_left (by linarith), min_eq_left (by linarith), max_eq_left (by linarith), min_eq_left (by linarith)]; ring
  · intro h1 h2
    rw [max_eq_left (by linarith), min_eq_right (by linarith), max_eq_left (by linarith), min_eq_right (by linarith)]; ring

/-- C86.  With the default stretch the merger takes three quarters of the length that all times would take without it, and always more than three sevenths of the axis. -/
theorem default_stretch (ti tm tr tf : ℝ) (h1 : ti ≤ tm) (h2 : tm < tr) (h3 : tr ≤ tf) :
    ∃ c, make ti tm tr tf none = .ok c ∧ c.tMerger = tm ∧ c.tRingdown = tr ∧ 0 < c.stretch ∧ forward c tr - forward c tm = 0.75 * (tf - ti) ∧
      3 / 7 * (forward c tf - forward c ti) < forward c tr - forward c tm := by
  have hne : tr - tm ≠ 0 := by linarith
  refine ⟨_, if_neg hne, rfl, rfl, ?_, ?_⟩
  · show 0 < 0.75 * (tf - ti) / (tr - tm)
    exact div_pos (by norm_num; linarith) (by linarith)
  · set c : Scale := ⟨(none : Option ℝ).getD (0.75 * (tf - ti) / (tr - tm)), ti, tm, tr, tf⟩ with hc
    have hst : c.stretch * (tr - tm) = 0.75 * (tf - ti) := by
      show 0.75 * (tf - ti) / (tr - tm) * (tr - tm) = _
      field_simp
    have l1 := (lengths c (le_of_lt h2) tm tr).2.1 le_rfl (le_of_lt h2) (le_of_lt h2) le_rfl
    have l2 := (lengths c (le_of_lt h2) ti tm).1 h1 le_rfl
    have l3 := (lengths c (le_of_lt h2) tr tf).2.2 le_rfl h3
    rw [hst] at l1
    refine ⟨l1, ?_⟩
    norm_num at l1 ⊢
    linarith

/-- C86.  The limits of the axis are moved into the times of the data; limits within them stay. -/
theorem limits_spec (c : Scale) (v w : ℝ) :
    c.tInitial ≤ (limits c v w).1 ∧ (limits c v w).2 ≤ c.tFinal ∧ (c.tInitial ≤ v → (limits c v w).1 = v) ∧ (w ≤ c.tFinal → (limits c v w).2 = w) ∧
      (v ≤ w → v ≤ c.tFinal → c.tInitial ≤ w → c.tInitial ≤ c.tFinal → (limits c v w).1 ≤ (limits c v w).2) :=
  ⟨le_max_right _ _, min_le_right _ _, fun h => max_eq_left h, fun h => min_eq_left h, fun h1 h2 h3 h4 => max_le (le_min h1 h2) (le_min h3 h4)⟩

/-- C86, false of the code: a stretch is refused if merger and ringdown are at the same time, where it would have no effect: the default value is computed although it is not used. -/
theorem stretch_refused (ti t tf s : ℝ) : make ti t t tf (some s) = .error .zeroDivision := if_pos (sub_self t)

/-- C86.  For a ringdown before the merger the scale has a jump; nothing checks the order. -/
theorem wrong_order_accepted : ∃ c : Scale, make 0 2 1 3 (some 2) = .ok c ∧ forward c 0.5 = 0.5 ∧ forward c 1 = 0 := by
  have hne : ¬ ((1 : ℝ) - 2 = 0) := by norm_num
  refine ⟨_, if_neg hne, ?_, ?_⟩
  · unfold forward piecewise
    norm_num [List.foldl]
  · unfold forward piecewise
    norm_num [List.foldl]

/-- The hypotheses hold for a merger from 2 to 3 shown 5 times as long. -/
example : (⟨5, 0, 2, 3, 4⟩ : Scale).tMerger ≤ (⟨5, 0, 2, 3, 4⟩ : Scale).tRingdown ∧ 0 < (⟨5, 0, 2, 3, 4⟩ : Scale).stretch := by norm_num

end Verif.Props.MergerZoom
