import Verif.Model.Monotonic
import Verif.Spec.Monotonic
import Mathlib.Order.Basic
import Mathlib.Data.List.Basic
import Mathlib.Tactic.Push

namespace Verif.Monotonic
open Verif.Spec.Monotonic

section SpEC
variable {α : Type} [LinearOrder α]

theorem length_upMask (m : α) (l : List α) : (upMask m l).length = l.length := by
  induction l generalizing m with
  | nil => rfl
  | cons x l ih => unfold upMask; split <;> simp [ih]

theorem upMask_spec (m : α) (l : List α) (i : Nat) :
    (upMask m l).getD i false = true ↔
      ∃ x, l[i]? = some x ∧ m < x ∧ ∀ j, j < i → ∀ y, l[j]? = some y → y < x := by
  induction l generalizing m i with
  | nil => simp [upMask]
  | cons x l ih =>
    unfold upMask
    cases i with
    | zero => split <;> simp_all
    | succ i =>
      split
      · rename_i h
        simp only [List.getD_cons_succ, ih, List.getElem?_cons_succ]
        constructor
        · rintro ⟨z, hz, hm, hj⟩
          refine ⟨z, hz, hm, ?_⟩
          intro j hj' y hy
          cases j with
          | zero => simp at hy; subst hy; exact lt_of_le_of_lt h hm
          | succ j => exact hj j (by omega) y (by simpa using hy)
        · rintro ⟨z, hz, hm, hj⟩
          exact ⟨z, hz, hm, fun j hj' y hy => hj (j + 1) (by omega) y (by simpa using hy)⟩
      · rename_i h
        push Not at h
        simp only [List.getD_cons_succ, ih, List.getElem?_cons_succ]
        constructor
        · rintro ⟨z, hz, hm, hj⟩
          refine ⟨z, hz, lt_trans h hm, ?_⟩
          intro j hj' y hy
          cases j with
          | zero => simp at hy; subst hy; exact hm
          | succ j => exact hj j (by omega) y (by simpa using hy)
        · rintro ⟨z, hz, hm, hj⟩
          refine ⟨z, hz, hj 0 (by omega) x (by simp), ?_⟩
          exact fun j hj' y hy => hj (j + 1) (by omega) y (by simpa using hy)

theorem downMask_spec (m : α) (l : List α) (i : Nat) :
    (downMask m l).getD i false = true ↔
      ∃ x, l[i]? = some x ∧ x < m ∧ ∀ j, j < i → ∀ y, l[j]? = some y → x < y := by
  induction l generalizing m i with
  | nil => simp [downMask]
  | cons x l ih =>
    unfold downMask
    cases i with
    | zero => split <;> simp_all
    | succ i =>
      split
      · rename_i h
        simp only [List.getD_cons_succ, ih, List.getElem?_cons_succ]
        constructor
        · rintro ⟨z, hz, hm, hj⟩
          refine ⟨z, hz, hm, ?_⟩
          intro j hj' y hy
          cases j with
          | zero => simp at hy; subst hy; exact lt_of_lt_of_le hm h
          | succ j => exact hj j (by omega) y (by simpa using hy)
        · rintro ⟨z, hz, hm, hj⟩
          exact ⟨z, hz, hm, fun j hj' y hy => hj (j + 1) (by omega) y (by simpa using hy)⟩
      · rename_i h
        push Not at h
        simp only [List.getD_cons_succ, ih, List.getElem?_cons_succ]
        constructor
        · rintro ⟨z, hz, hm, hj⟩
          refine ⟨z, hz, lt_trans hm h, ?_⟩
          intro j hj' y hy
          cases j with
          | zero => simp at hy; subst hy; exact hm
          | succ j => exact hj j (by omega) y (by simpa using hy)
        · rintro ⟨z, hz, hm, hj⟩
          refine ⟨z, hz, hj 0 (by omega) x (by simp), ?_⟩
          exact fun j hj' y hy => hj (j + 1) (by omega) y (by simpa using hy)

theorem monotonicIndices_cons (y0 : α) (l : List α) :
    monotonicIndices (y0 :: l) = .ok ((List.range (l.length + 1)).filter fun i =>
      (true :: (if y0 < (y0 :: l).getLast (by simp) then upMask y0 l else downMask y0 l)).getD i
        false) := rfl

theorem record_high_cons (y0 : α) (l : List α) (i : Nat) (hi : i < l.length + 1) :
    (true :: upMask y0 l).getD i false = true ↔ RecordHigh (y0 :: l) i := by
  cases i with
  | zero => simp [RecordHigh]
  | succ i =>
    rw [List.getD_cons_succ, upMask_spec]
    constructor
    · rintro ⟨x, hx, hm, hj⟩
      refine ⟨x, by simpa using hx, ?_⟩
      intro j hj' z hz
      cases j with
      | zero => simp at hz; subst hz; exact hm
      | succ j => exact hj j (by omega) z (by simpa using hz)
    · rintro ⟨x, hx, hj⟩
      exact ⟨x, by simpa using hx, hj 0 (by omega) y0 (by simp),
        fun j hj' z hz => hj (j + 1) (by omega) z (by simpa using hz)⟩

theorem record_low_cons (y0 : α) (l : List α) (i : Nat) (hi : i < l.length + 1) :
    (true :: downMask y0 l).getD i false = true ↔ RecordLow (y0 :: l) i := by
  cases i with
  | zero => simp [RecordLow]
  | succ i =>
    rw [List.getD_cons_succ, downMask_spec]
    constructor
    · rintro ⟨x, hx, hm, hj⟩
      refine ⟨x, by simpa using hx, ?_⟩
      intro j hj' z hz
      cases j with
      | zero => simp at hz; subst hz; exact hm
      | succ j => exact hj j (by omega) z (by simpa using hz)
    · rintro ⟨x, hx, hj⟩
      exact ⟨x, by simpa using hx, hj 0 (by omega) y0 (by simp),
        fun j hj' z hz => hj (j + 1) (by omega) z (by simpa using hz)⟩

theorem monotonize_of_indices {y : List α} {idx : List Nat} (h : monotonicIndices y = .ok idx) :
    monotonize y = .ok (idx.filterMap fun i => y[i]?) := by
  unfold monotonize; rw [h]; rfl

omit [LinearOrder α] in
theorem filterMap_range_getElem? (y : List α) :
    (List.range y.length).filterMap (fun i => y[i]?) = y := by
  induction y with
  | nil => rfl
  | cons a y ih =>
    rw [List.length_cons, List.range_succ_eq_map, List.filterMap_cons, List.filterMap_map]
    simp only [List.getElem?_cons_zero]
    congr 1

theorem sublist_of_indices {y : List α} (hne : y ≠ []) {idx : List Nat}
    (h : monotonicIndices y = .ok idx) : (idx.filterMap fun i => y[i]?).Sublist y := by
  have hsub : idx.Sublist (List.range y.length) := by
    cases y with
    | nil => exact absurd rfl hne
    | cons y0 l =>
      rw [monotonicIndices_cons] at h
      injection h with h
      rw [← h]
      exact List.filter_sublist
  have := hsub.filterMap (fun i => y[i]?)
  rwa [filterMap_range_getElem?] at this

omit [LinearOrder α] in
theorem head_of_indices {y : List α} (hne : y ≠ []) {idx : List Nat}
    (hs : idx.Pairwise (· < ·)) (h0 : 0 ∈ idx) :
    (idx.filterMap fun i => y[i]?).head? = some (y.head hne) := by
  obtain ⟨t, ht⟩ : ∃ t, idx = 0 :: t := by
    cases idx with
    | nil => simp at h0
    | cons a t =>
      rcases List.mem_cons.mp h0 with rfl | h0
      · exact ⟨t, rfl⟩
      · have := (List.pairwise_cons.mp hs).1 0 h0
        omega
  rw [ht]
  cases y with
  | nil => exact absurd rfl hne
  | cons y0 l => simp

/-- the first position of the maximum of a relation-monotone kind -/
theorem exists_first_max (y : List α) (hne : y ≠ []) :
    ∃ i : Nat, ∃ x, y[i]? = some x ∧ (∀ z ∈ y, z ≤ x) ∧ ∀ j, j < i → ∀ z, y[j]? = some z → z < x := by
  induction y with
  | nil => exact absurd rfl hne
  | cons a y ih =>
    by_cases hy : y = []
    · subst hy; exact ⟨0, a, by simp⟩
    · obtain ⟨i, x, hx, hmax, hfirst⟩ := ih hy
      by_cases hax : x ≤ a
      · refine ⟨0, a, by simp, ?_, by simp⟩
        intro z hz
        rcases List.mem_cons.mp hz with rfl | hz
        · exact le_rfl
        · exact le_trans (hmax z hz) hax
      · rw [not_le] at hax
        refine ⟨i + 1, x, by simpa using hx, ?_, ?_⟩
        · intro z hz
          rcases List.mem_cons.mp hz with rfl | hz
          · exact le_of_lt hax
          · exact hmax z hz
        · intro j hj z hz
          cases j with
          | zero => simp at hz; subst hz; exact hax
          | succ j => exact hfirst j (by omega) z (by simpa using hz)

theorem exists_first_min (y : List α) (hne : y ≠ []) :
    ∃ i : Nat, ∃ x, y[i]? = some x ∧ (∀ z ∈ y, x ≤ z) ∧ ∀ j, j < i → ∀ z, y[j]? = some z → x < z := by
  induction y with
  | nil => exact absurd rfl hne
  | cons a y ih =>
    by_cases hy : y = []
    · subst hy; exact ⟨0, a, by simp⟩
    · obtain ⟨i, x, hx, hmax, hfirst⟩ := ih hy
      by_cases hax : a ≤ x
      · refine ⟨0, a, by simp, ?_, by simp⟩
        intro z hz
        rcases List.mem_cons.mp hz with rfl | hz
        · exact le_rfl
        · exact le_trans hax (hmax z hz)
      · rw [not_le] at hax
        refine ⟨i + 1, x, by simpa using hx, ?_, ?_⟩
        · intro z hz
          rcases List.mem_cons.mp hz with rfl | hz
          · exact le_of_lt hax
          · exact hmax z hz
        · intro j hj z hz
          cases j with
          | zero => simp at hz; subst hz; exact hax
          | succ j => exact hfirst j (by omega) z (by simpa using hz)

theorem getLast_max_mem {idx : List Nat} (hs : idx.Pairwise (· < ·)) {i : Nat} (hi : i ∈ idx)
    (hmax : ∀ j ∈ idx, j ≤ i) : ∃ t, idx = t ++ [i] := by
  have hne : idx ≠ [] := by rintro rfl; simp at hi
  refine ⟨idx.dropLast, ?_⟩
  have e := List.dropLast_append_getLast hne
  have hl : idx.getLast hne = i := by
    have h1 := hmax _ (List.getLast_mem hne)
    rw [← e] at hs hi
    rcases List.mem_append.mp hi with h | h
    · have := (List.pairwise_append.mp hs).2.2 i h (idx.getLast hne) (by simp)
      omega
    · exact (List.mem_singleton.mp h).symm
  rw [← hl]; exact e.symm

theorem last_of_indices_high {y : List α} (hne : y ≠ []) {idx : List Nat}
    (hs : idx.Pairwise (· < ·)) (hmem : ∀ i, i ∈ idx ↔ RecordHigh y i) :
    ∃ top, (idx.filterMap fun i => y[i]?).getLast? = some top ∧ ∀ x ∈ y, x ≤ top := by
  obtain ⟨i, x, hx, hmax, hfirst⟩ := exists_first_max y hne
  have hi : i ∈ idx := (hmem i).mpr ⟨x, hx, hfirst⟩
  obtain ⟨t, ht⟩ := getLast_max_mem hs hi (by
    intro j hj
    by_contra hlt
    rw [Nat.not_le] at hlt
    obtain ⟨w, hw, hrec⟩ := (hmem j).mp hj
    have h1 := hrec i hlt x hx
    have h2 := hmax w (List.mem_of_getElem? hw)
    exact absurd h1 (not_lt.mpr h2))
  refine ⟨x, ?_, hmax⟩
  rw [ht, List.filterMap_append]
  simp [hx]

theorem last_of_indices_low {y : List α} (hne : y ≠ []) {idx : List Nat}
    (hs : idx.Pairwise (· < ·)) (hmem : ∀ i, i ∈ idx ↔ RecordLow y i) :
    ∃ bot, (idx.filterMap fun i => y[i]?).getLast? = some bot ∧ ∀ x ∈ y, bot ≤ x := by
  obtain ⟨i, x, hx, hmax, hfirst⟩ := exists_first_min y hne
  have hi : i ∈ idx := (hmem i).mpr ⟨x, hx, hfirst⟩
  obtain ⟨t, ht⟩ := getLast_max_mem hs hi (by
    intro j hj
    by_contra hlt
    rw [Nat.not_le] at hlt
    obtain ⟨w, hw, hrec⟩ := (hmem j).mp hj
    have h1 := hrec i hlt x hx
    have h2 := hmax w (List.mem_of_getElem? hw)
    exact absurd h1 (not_lt.mpr h2))
  refine ⟨x, ?_, hmax⟩
  rw [ht, List.filterMap_append]
  simp [hx]

theorem eq_range_of_all {idx : List Nat} {n : Nat} (hs : idx.Pairwise (· < ·))
    (hmem : ∀ i, i ∈ idx ↔ i < n) : idx = List.range n := by
  apply List.Perm.eq_of_pairwise (le := (· < ·)) ?_ hs List.pairwise_lt_range
  · rw [List.perm_ext_iff_of_nodup (hs.imp (fun h => Nat.ne_of_lt h)) List.nodup_range]
    intro a; rw [hmem, List.mem_range]
  · intro a b _ _ h1 h2; omega

end SpEC

end Verif.Monotonic
