import Verif.Model.FiniteRadius
import Verif.Spec.FiniteRadius
import Verif.Props.ExMonotonic
import Verif.Props.Weights
import Mathlib.Tactic.Ring
import Mathlib.Tactic.FieldSimp
import Mathlib.Tactic.Linarith
import Mathlib.Algebra.BigOperators.Intervals

namespace Verif.FiniteRadius
open Verif Verif.Spec.FiniteRadius

theorem cumTrap_length : ∀ (y x : List ℝ) (acc : ℝ), y.length = x.length → (cumTrap acc y x).length = x.length - 1
  | [], x, acc, h => by cases x <;> simp_all [cumTrap]
  | [y0], x, acc, h => by
    match x, h with
    | [x0], _ => simp [cumTrap]
  | y0 :: y1 :: ys, x, acc, h => by
    match x, h with
    | x0 :: x1 :: xs, h =>
      have := cumTrap_length (y1 :: ys) (x1 :: xs) (acc + (x1 - x0) * (y0 + y1) / 2) (by simpa using h)
      simp [cumTrap, this]

theorem cumTrap_get : ∀ (y x : List ℝ) (acc : ℝ) (j : Nat), y.length = x.length → j + 1 < x.length →
    (cumTrap acc y x)[j]? = some (acc + ∑ i ∈ Finset.range (j + 1), (x.getD (i + 1) 0 - x.getD i 0) * (y.getD i 0 + y.getD (i + 1) 0) / 2)
  | [], x, acc, j, h, hj => by simp at h; omega
  | [y0], x, acc, j, h, hj => by simp at h; omega
  | y0 :: y1 :: ys, x, acc, j, h, hj => by
    match x, h with
    | x0 :: x1 :: xs, h =>
      cases j with
      | zero => simp [cumTrap]
      | succ j =>
        have := cumTrap_get (y1 :: ys) (x1 :: xs) (acc + (x1 - x0) * (y0 + y1) / 2) j (by simpa using h) (by simpa using hj)
        rw [Finset.sum_range_succ']
        simp only [cumTrap, List.getElem?_cons_succ, this, List.getD_cons_succ, List.getD_cons_zero]
        congr 1
        ring

theorem rate_eq (E N R : ℝ) : rate E N R = clock E N R := by
  unfold rate clock
  congr 2
  ring

theorem getD_zipWith (f : ℝ → ℝ → ℝ) (a b : List ℝ) (j : Nat) (ha : j < a.length) (hb : j < b.length) :
    (List.zipWith f a b).getD j 0 = f (a.getD j 0) (b.getD j 0) := by
  simp [List.getD_eq_getElem?_getD, List.getElem?_zipWith, List.getElem?_eq_getElem ha, List.getElem?_eq_getElem hb]

theorem retime_spec (E : ℝ) (T N R : List ℝ) (hN : N.length = T.length) (hR : R.length = T.length) (h0 : T ≠ []) :
    ∃ t, retime E T N R = .ok t ∧ t.length = T.length ∧
      ∀ j, j < T.length → t[j]? = some (retarded E (fun i => T.getD i 0) (fun i => N.getD i 0) (fun i => R.getD i 0) j) := by
  match T, h0 with
  | t0 :: ts, _ =>
    have hy : (List.zipWith (rate E) N R).length = (t0 :: ts).length := by simp [hN, hR]
    refine ⟨_, rfl, ?_, ?_⟩
    · have := cumTrap_length _ _ 0 hy
      simp only [List.length_zipWith, List.length_cons, List.length_map, this, hR]
      simp
    · intro j hj
      have hjR : j < R.length := by rw [hR]; exact hj
      have hjN : j < N.length := by rw [hN]; exact hj
      have rj : R[j]? = some (R.getD j 0) := by simp [List.getD_eq_getElem?_getD, List.getElem?_eq_getElem hjR]
      rw [List.getElem?_zipWith, rj]
      cases j with
      | zero =>
        simp [retarded, tortoise, rstar]
      | succ j =>
        rw [List.getElem?_cons_succ, List.getElem?_map, cumTrap_get _ _ 0 j hy (by simpa using hj)]
        simp only [Option.map_some]
        unfold retarded tortoise rstar
        have hs : ∑ i ∈ Finset.range (j + 1), ((t0 :: ts).getD (i + 1) 0 - (t0 :: ts).getD i 0) * ((List.zipWith (rate E) N R).getD i 0 + (List.zipWith (rate E) N R).getD (i + 1) 0) / 2
            = ∑ i ∈ Finset.range (j + 1), ((t0 :: ts).getD (i + 1) 0 - (t0 :: ts).getD i 0) * (clock E (N.getD i 0) (R.getD i 0) + clock E (N.getD (i + 1) 0) (R.getD (i + 1) 0)) / 2 := by
          apply Finset.sum_congr rfl
          intro i hi
          rw [Finset.mem_range] at hi
          rw [getD_zipWith _ _ _ _ (by omega) (by omega), getD_zipWith _ _ _ _ (by omega) (by omega), rate_eq, rate_eq]
        rw [hs]
        simp only [List.getD_cons_zero]
        congr 1
        ring

theorem pick_ok {α : Type} (l : List α) (I : List Nat) (h : ∀ i ∈ I, i < l.length) :
    ∃ r, pick l I = .ok r ∧ r.length = I.length ∧ ∀ (j i : Nat), I[j]? = some i → r[j]? = l[i]? := by
  refine ⟨I.filterMap fun i => l[i]?, by rw [pick, if_pos h], ?_, ?_⟩
  · induction I with
    | nil => rfl
    | cons a I ih =>
      have ha := h a (by simp)
      simp only [List.filterMap_cons, List.getElem?_eq_getElem ha, List.length_cons]
      rw [ih fun i hi => h i (by simp [hi])]
  · induction I with
    | nil => intro j i hj; simp at hj
    | cons a I ih =>
      have ha := h a (by simp)
      intro j i hj
      simp only [List.filterMap_cons, List.getElem?_eq_getElem ha]
      cases j with
      | zero => simp at hj; subst hj; simp [List.getElem?_eq_getElem ha]
      | succ j => simp at hj ⊢; exact ih (fun i hi => h i (by simp [hi])) j i hj

theorem pick_inv {α : Type} {l r : List α} {I : List Nat} (h : pick l I = .ok r) : ∀ i ∈ I, i < l.length := by
  unfold pick at h
  by_cases c : ∀ i ∈ I, i < l.length
  · exact c
  · rw [if_neg c] at h; cases h

end Verif.FiniteRadius
