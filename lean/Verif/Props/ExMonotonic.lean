import Verif.Lemmas.ExMonotonic
import Mathlib.Algebra.Order.Ring.Int

/-!
# C27: `scri.extrapolation.monotonic_indices`

The full claim, "terminates for every time array and returns indices with steps larger than
`MinTimeStep`", is false of the code: `ex_monotonic_indices_hangs` gives a three-sample array on
which the loop never ends, and `ex_monotonic_indices_terminates_iff` says exactly for which arrays
it ends.  `ex_monotonic_indices_partial` is the claim for those arrays.
-/

namespace Verif.Props.ExMonotonic
open Verif.Monotonic
variable {α : Type} [LinearOrder α] [AddCommGroup α] [IsOrderedAddMonoid α]

/-- C27.  When every later sample exceeds the first by more than `MinTimeStep`, the loop ends,
after at most `2 n` passes, and returns exactly the indices `k` (in increasing order) such that
every later sample exceeds sample `k` by more than `MinTimeStep`.  Hence consecutive kept times
differ by more than `MinTimeStep` and the first and the last sample are kept. -/
theorem ex_monotonic_indices_partial (T : Nat → α) (m : α) (hm : 0 ≤ m) (n : Nat) (hn : 0 < n)
    (h : ∀ k, 0 < k → k < n → T 0 + m < T k) (fuel : Nat) (hf : 2 * n ≤ fuel) :
    ∃ r, exMonotonicIndices fuel n T m = some r ∧
      r.Pairwise (· < ·) ∧
      (∀ k, k ∈ r ↔ k < n ∧ ∀ l, k < l → l < n → T k + m < T l) ∧
      r.Pairwise (fun a b => T a + m < T b) ∧ 0 ∈ r ∧ n - 1 ∈ r := by
  obtain ⟨d, hd⟩ : ∃ d, 1 + d = n := ⟨n - 1, by omega⟩
  obtain ⟨fl, hfl, hl⟩ := loop_survivors T m hm n h d 1 (by omega) hd
  have e1 : survivors T m 1 = [0] := by
    unfold survivors
    rw [show List.range 1 = [0] from rfl, List.filter_cons_of_pos]
    · rfl
    · simp only [decide_eq_true_eq]; intro l hl h0; omega
  rw [e1] at hl
  have e2 : [0] ++ List.range' 1 d = List.range n := by
    rw [← hd, List.range_eq_range', Nat.add_comm, List.range'_succ]; rfl
  rw [e2] at hl
  have hmem : ∀ k, k ∈ survivors T m n ↔ k < n ∧ ∀ l, k < l → l < n → T k + m < T l := by
    intro k
    unfold survivors
    rw [List.mem_filter, List.mem_range]
    simp only [decide_eq_true_eq]
    constructor
    · rintro ⟨h1, h2⟩; exact ⟨h1, fun l a b => h2 l b a⟩
    · rintro ⟨h1, h2⟩; exact ⟨h1, fun l a b => h2 l b a⟩
  refine ⟨survivors T m n, ?_, List.pairwise_lt_range.filter _, hmem, survivors_good T m n, ?_, ?_⟩
  · have := loop_mono T m fl _ _ _ hl (fuel - fl)
    rw [show fl + (fuel - fl) = fuel by omega] at this
    exact this
  · rw [hmem]; exact ⟨hn, fun l a b => h l a b⟩
  · rw [hmem]; exact ⟨by omega, fun l a b => by omega⟩

/-- C27 (termination).  For a non-empty array and `MinTimeStep ≥ 0`, the loop ends if and only
if every later sample exceeds the *first* one by more than `MinTimeStep`. -/
theorem ex_monotonic_indices_terminates_iff (T : Nat → α) (m : α) (hm : 0 ≤ m) (n : Nat)
    (hn : 0 < n) :
    (∃ fuel r, exMonotonicIndices fuel n T m = some r) ↔
      ∀ k, 0 < k → k < n → T 0 + m < T k := by
  constructor
  · rintro ⟨fuel, r, hr⟩ k h0 hk
    by_contra hcon
    have hd := (loop_diverges T m hm fuel).2 [0] (List.range' 1 (n - 1)) (by simp)
      (List.pairwise_singleton _ _) ⟨k, by simp [List.mem_range'_1]; omega, by
        simpa using not_lt.mp hcon⟩
    have e2 : [0] ++ List.range' 1 (n - 1) = List.range n := by
      obtain ⟨q, rfl⟩ : ∃ q, n = q + 1 := ⟨n - 1, by omega⟩
      rw [List.range_eq_range', List.range'_succ]; rfl
    rw [e2] at hd
    unfold exMonotonicIndices at hr
    rw [show ([0] : List Nat).length = 1 from rfl] at hd
    rw [hd] at hr
    cases hr
  · intro h
    obtain ⟨r, hr, -⟩ := ex_monotonic_indices_partial T m hm n hn h (2 * n) le_rfl
    exact ⟨_, r, hr⟩

/-- C27 (negation).  The documented promise "return the indices that make the array strictly
monotonic" fails: on the three samples `0, 0, 1000` the function never returns. -/
theorem ex_monotonic_indices_hangs :
    ¬ ∃ fuel r, exMonotonicIndices fuel 3 (fun k => ([0, 0, 1000] : List Int).getD k 0) 1 = some r := by
  rw [ex_monotonic_indices_terminates_iff _ _ (by decide) _ (by decide)]
  intro h
  exact absurd (h 1 (by decide) (by decide)) (by decide)

/-- Non-vacuity: a series with a backwards jump (not below the start) meets the hypothesis of
`ex_monotonic_indices_partial`; the superseded samples are dropped. -/
example : (∀ k, 0 < k → k < 6 → (fun k => ([0, 10, 20, 30, 15, 40] : List Int).getD k 0) 0 + 1 <
      (fun k => ([0, 10, 20, 30, 15, 40] : List Int).getD k 0) k) ∧
    exMonotonicIndices 12 6 (fun k => ([0, 10, 20, 30, 15, 40] : List Int).getD k 0) 1 =
      some [0, 1, 4, 5] := by
  constructor
  · intro k h0 hk
    have : k = 1 ∨ k = 2 ∨ k = 3 ∨ k = 4 ∨ k = 5 := by omega
    rcases this with rfl | rfl | rfl | rfl | rfl <;> decide
  · decide

end Verif.Props.ExMonotonic
