import Verif.Lemmas.Monotonic
import Mathlib.Order.Nat
import Mathlib.Data.Nat.Basic

/-!
# C06: `index_is_monotonic`, `monotonic_indices`, `monotonize`
-/

namespace Verif.Props.Monotonic
open Verif.Monotonic Verif.Spec.Monotonic
variable {α : Type} [LinearOrder α]

/-- C06 (error branch).  The filter is only defined on non-empty arrays. -/
theorem monotonicIndices_ok_iff (y : List α) :
    (∃ idx, monotonicIndices y = .ok idx) ↔ y ≠ [] := by
  cases y with
  | nil => simp [monotonicIndices, indexIsMonotonic]
  | cons y0 l => simp [monotonicIndices_cons]

/-- C06.  When the last sample exceeds the first, the kept indices, in increasing order, are
exactly those of the samples that exceed every earlier sample (kept or not). -/
theorem mem_monotonicIndices_increasing (y : List α) (hne : y ≠ [])
    (hdir : y.head hne < y.getLast hne) :
    ∃ idx, monotonicIndices y = .ok idx ∧ idx.Pairwise (· < ·) ∧
      ∀ i, i ∈ idx ↔ RecordHigh y i := by
  cases y with
  | nil => exact absurd rfl hne
  | cons y0 l =>
    rw [monotonicIndices_cons]
    have hdir' : y0 < (y0 :: l).getLast (by simp) := hdir
    refine ⟨_, rfl, (List.pairwise_lt_range).filter _, ?_⟩
    intro i
    rw [List.mem_filter, List.mem_range, if_pos hdir']
    constructor
    · rintro ⟨hi, h⟩
      exact (record_high_cons y0 l i hi).mp h
    · intro h
      have hi : i < l.length + 1 := by
        obtain ⟨x, hx, -⟩ := h
        have := (List.getElem?_eq_some_iff.mp hx).1
        simpa using this
      exact ⟨hi, (record_high_cons y0 l i hi).mpr h⟩

/-- C06.  Otherwise the kept indices are exactly those of the samples that are below every
earlier sample. -/
theorem mem_monotonicIndices_decreasing (y : List α) (hne : y ≠ [])
    (hdir : ¬ y.head hne < y.getLast hne) :
    ∃ idx, monotonicIndices y = .ok idx ∧ idx.Pairwise (· < ·) ∧
      ∀ i, i ∈ idx ↔ RecordLow y i := by
  cases y with
  | nil => exact absurd rfl hne
  | cons y0 l =>
    rw [monotonicIndices_cons]
    have hdir' : ¬ y0 < (y0 :: l).getLast (by simp) := hdir
    refine ⟨_, rfl, (List.pairwise_lt_range).filter _, ?_⟩
    intro i
    rw [List.mem_filter, List.mem_range, if_neg hdir']
    constructor
    · rintro ⟨hi, h⟩
      exact (record_low_cons y0 l i hi).mp h
    · intro h
      have hi : i < l.length + 1 := by
        obtain ⟨x, hx, -⟩ := h
        have := (List.getElem?_eq_some_iff.mp hx).1
        simpa using this
      exact ⟨hi, (record_low_cons y0 l i hi).mpr h⟩


/-- C06.  `monotonize` of an increasing-direction series is strictly increasing, starts with
the first sample, ends with the largest one, and is a subsequence of the input. -/
theorem monotonize_increasing (y : List α) (hne : y ≠ [])
    (hdir : y.head hne < y.getLast hne) :
    ∃ out, monotonize y = .ok out ∧ out.Pairwise (· < ·) ∧ out.Sublist y ∧
      out.head? = some (y.head hne) ∧ ∃ top, out.getLast? = some top ∧ ∀ x ∈ y, x ≤ top := by
  obtain ⟨idx, h, hs, hmem⟩ := mem_monotonicIndices_increasing y hne hdir
  refine ⟨_, monotonize_of_indices h, ?_, sublist_of_indices hne h, ?_, ?_⟩
  · rw [List.pairwise_filterMap]
    refine hs.imp_of_mem ?_
    intro a b ha hb hab x hx z hz
    obtain ⟨w, hw, hrec⟩ := (hmem b).mp hb
    have e : w = z := by rw [hw] at hz; exact Option.some.inj hz
    subst e
    exact hrec a hab x hx
  · exact head_of_indices hne hs ((hmem 0).mpr ⟨y.head hne, by
      cases y with
      | nil => exact absurd rfl hne
      | cons y0 l => simp, by simp⟩)
  · exact last_of_indices_high hne hs hmem

/-- C06.  `monotonize` of any other series is strictly decreasing, starts with the first
sample, ends with the smallest one, and is a subsequence of the input. -/
theorem monotonize_decreasing (y : List α) (hne : y ≠ [])
    (hdir : ¬ y.head hne < y.getLast hne) :
    ∃ out, monotonize y = .ok out ∧ out.Pairwise (· > ·) ∧ out.Sublist y ∧
      out.head? = some (y.head hne) ∧ ∃ bot, out.getLast? = some bot ∧ ∀ x ∈ y, bot ≤ x := by
  obtain ⟨idx, h, hs, hmem⟩ := mem_monotonicIndices_decreasing y hne hdir
  refine ⟨_, monotonize_of_indices h, ?_, sublist_of_indices hne h, ?_, ?_⟩
  · rw [List.pairwise_filterMap]
    refine hs.imp_of_mem ?_
    intro a b ha hb hab x hx z hz
    obtain ⟨w, hw, hrec⟩ := (hmem b).mp hb
    have e : w = z := by rw [hw] at hz; exact Option.some.inj hz
    subst e
    exact hrec a hab x hx
  · exact head_of_indices hne hs ((hmem 0).mpr ⟨y.head hne, by
      cases y with
      | nil => exact absurd rfl hne
      | cons y0 l => simp, by simp⟩)
  · exact last_of_indices_low hne hs hmem

/-- C06.  A strictly increasing series is returned unchanged. -/
theorem monotonize_id_increasing (y : List α) (hne : y ≠ []) (hy : y.Pairwise (· < ·)) :
    monotonize y = .ok y := by
  by_cases hdir : y.head hne < y.getLast hne
  · obtain ⟨idx, h, hs, hmem⟩ := mem_monotonicIndices_increasing y hne hdir
    rw [monotonize_of_indices h, eq_range_of_all hs ?_, filterMap_range_getElem?]
    intro i
    rw [hmem]
    constructor
    · rintro ⟨x, hx, -⟩; exact (List.getElem?_eq_some_iff.mp hx).1
    · intro hi
      refine ⟨y[i], List.getElem?_eq_getElem hi, ?_⟩
      intro j hj z hz
      obtain ⟨hj', rfl⟩ := List.getElem?_eq_some_iff.mp hz
      exact List.pairwise_iff_getElem.mp hy j i hj' hi hj
  · cases y with
    | nil => exact absurd rfl hne
    | cons y0 l =>
      cases l with
      | nil => rfl
      | cons y1 l =>
        exfalso
        apply hdir
        show y0 < (y0 :: y1 :: l).getLast hne
        rw [List.getLast_cons (by simp)]
        exact (List.pairwise_cons.mp hy).1 _ (List.getLast_mem _)

/-- C06.  A strictly decreasing series is returned unchanged. -/
theorem monotonize_id_decreasing (y : List α) (hne : y ≠ []) (hy : y.Pairwise (· > ·)) :
    monotonize y = .ok y := by
  have hdir : ¬ y.head hne < y.getLast hne := by
    cases y with
    | nil => exact absurd rfl hne
    | cons y0 l =>
      cases l with
      | nil => simp
      | cons y1 l =>
        show ¬ y0 < (y0 :: y1 :: l).getLast hne
        rw [List.getLast_cons (by simp), not_lt]
        exact le_of_lt ((List.pairwise_cons.mp hy).1 _ (List.getLast_mem _))
  obtain ⟨idx, h, hs, hmem⟩ := mem_monotonicIndices_decreasing y hne hdir
  rw [monotonize_of_indices h, eq_range_of_all hs ?_, filterMap_range_getElem?]
  intro i
  rw [hmem]
  constructor
  · rintro ⟨x, hx, -⟩; exact (List.getElem?_eq_some_iff.mp hx).1
  · intro hi
    refine ⟨y[i], List.getElem?_eq_getElem hi, ?_⟩
    intro j hj z hz
    obtain ⟨hj', rfl⟩ := List.getElem?_eq_some_iff.mp hz
    exact List.pairwise_iff_getElem.mp hy j i hj' hi hj

/-- C06.  Filtering twice is filtering once. -/
theorem monotonize_idempotent (y out : List α) (h : monotonize y = .ok out) :
    monotonize out = .ok out := by
  have hne : y ≠ [] := by
    rintro rfl
    exact absurd h (by simp [monotonize, monotonicIndices, indexIsMonotonic])
  by_cases hdir : y.head hne < y.getLast hne
  · obtain ⟨out', h', hp, -, hh, -⟩ := monotonize_increasing y hne hdir
    rw [h] at h'; injection h' with h'; subst h'
    exact monotonize_id_increasing out (by rintro rfl; simp at hh) hp
  · obtain ⟨out', h', hp, -, hh, -⟩ := monotonize_decreasing y hne hdir
    rw [h] at h'; injection h' with h'; subst h'
    exact monotonize_id_decreasing out (by rintro rfl; simp at hh) hp

/-- Non-vacuity: a series with a backwards jump and a repeated value, and a decreasing one. -/
example : ([0, 2, 1, 2, 3] : List Nat).head (by simp) < ([0, 2, 1, 2, 3] : List Nat).getLast (by simp)
    ∧ monotonize ([0, 2, 1, 2, 3] : List Nat) = .ok [0, 2, 3]
    ∧ monotonize ([5, 6, 3, 3, 1] : List Nat) = .ok [5, 3, 1] := by decide

end Verif.Props.Monotonic
