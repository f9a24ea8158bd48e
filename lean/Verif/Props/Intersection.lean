import Verif.Lemmas.Intersection
import Mathlib.Algebra.Order.Group.Int

/-!
# C26: the common time grid of two waveforms (`scri.extrapolation.intersection`)
-/

set_option linter.unusedSectionVars false

namespace Verif.Props.Intersection
open Verif.Intersection Verif.Spec.Intersection
variable {α : Type} [LinearOrder α] [AddCommGroup α] [IsOrderedAddMonoid α]

/-- An empty input is refused. -/
theorem intersection_rejects_empty (t1 t2 : List α) (s lo hi : Option α)
    (h : t1 = [] ∨ t2 = []) : intersection t1 t2 s lo hi = .error .valueError := by
  cases t1 with
  | nil => rfl
  | cons a l =>
    cases t2 with
    | nil => rfl
    | cons b l => simp at h

theorem mint_spec (a b : α) (lo : Option α) (m : α) (h : IsLatest a b lo m) :
    startTime a b lo = m := by
  obtain ⟨h1, h2, h3, h4⟩ := h
  cases lo with
  | none =>
    apply le_antisymm (max_le h2 h3)
    rcases h1 with h | h | h
    · rw [h]; exact le_max_left _ _
    · rw [h]; exact le_max_right _ _
    · simp at h
  | some x =>
    apply le_antisymm (max_le (max_le h2 h3) (h4 x rfl))
    rcases h1 with h | h | h
    · rw [h]; exact (le_max_left _ _).trans (le_max_left _ _)
    · rw [h]; exact (le_max_right _ _).trans (le_max_left _ _)
    · simp at h; rw [h]; exact le_max_right _ _

theorem maxt_spec (a b : α) (lo : Option α) (m : α) (h : IsEarliest a b lo m) :
    endTime a b lo = m := by
  obtain ⟨h1, h2, h3, h4⟩ := h
  cases lo with
  | none =>
    refine le_antisymm ?_ (le_min h2 h3)
    rcases h1 with h | h | h
    · rw [h]; exact min_le_left _ _
    · rw [h]; exact min_le_right _ _
    · simp at h
  | some x =>
    refine le_antisymm ?_ (le_min (le_min h2 h3) (h4 x rfl))
    rcases h1 with h | h | h
    · rw [h]; exact (min_le_left _ _).trans (min_le_left _ _)
    · rw [h]; exact (min_le_left _ _).trans (min_le_right _ _)
    · simp at h; rw [h]; exact min_le_right _ _

/-- The two ranges, cut by the user's limits, do not meet exactly when the call is refused
(with an explicit `min_step`); otherwise the call succeeds: it never runs out of its
`len(t1) + len(t2)` buffer or reads outside `t1`/`t2`, and returns the grid that starts at the
latest start, moves on at each point by the finer of the two local spacings but at least by
`min_step`, and stops before the earliest end. -/
theorem intersection_spec (t1 t2 : List α) (hs1 : t1.Pairwise (· < ·)) (hs2 : t2.Pairwise (· < ·))
    (a b z1 z2 : α) (ha : t1.head? = some a) (hb : t2.head? = some b)
    (hz1 : t1.getLast? = some z1) (hz2 : t2.getLast? = some z2)
    (step : α) (lo hi : Option α) (mint maxt : α)
    (hmint : IsLatest a b lo mint) (hmaxt : IsEarliest z1 z2 hi maxt) :
    if mint > z1 ∨ mint > z2 ∨ maxt < a ∨ maxt < b then
      intersection t1 t2 (some step) lo hi = .error .valueError
    else
      ∃ out, intersection t1 t2 (some step) lo hi = .ok out ∧ Grid t1 t2 step maxt mint out := by
  cases t1 with
  | nil => simp at ha
  | cons a' l1 =>
  cases t2 with
  | nil => simp at hb
  | cons b' l2 =>
  simp only [List.head?_cons, Option.some.injEq] at ha hb
  subst ha; subst hb
  have e1 : (a' :: l1).getLast (by simp) = z1 := by
    rw [List.getLast?_eq_some_getLast (by simp)] at hz1; simpa using hz1
  have e2 : (b' :: l2).getLast (by simp) = z2 := by
    rw [List.getLast?_eq_some_getLast (by simp)] at hz2; simpa using hz2
  have key : intersection (a' :: l1) (b' :: l2) (some step) lo hi =
      if mint > z1 ∨ mint > z2 then .error .valueError
      else if maxt < a' ∨ maxt < b' then .error .valueError
      else loop (a' :: l1) (b' :: l2) a' z1 b' z2 maxt step
        ((a' :: l1).length + (b' :: l2).length - 1) [] mint 0 0 := by
    unfold intersection
    simp only [mint_spec a' b' lo mint hmint, e1, e2, maxt_spec z1 z2 hi maxt hmaxt]
    rfl
  rw [key]
  by_cases c1 : mint > z1 ∨ mint > z2
  · rw [if_pos c1, if_pos (by tauto)]
  · by_cases c2 : maxt < a' ∨ maxt < b'
    · rw [if_neg c1, if_pos c2, if_pos (by tauto)]
    · rw [if_neg c1, if_neg c2, if_neg (by tauto)]
      obtain ⟨out, h1, h2⟩ := loop_spec (a' :: l1) (b' :: l2) hs1 hs2 a' z1 b' z2 maxt step rfl hz1
        rfl hz2 hmaxt.2.1 hmaxt.2.2.1 ((a' :: l1).length + (b' :: l2).length - 1) [] mint 0 0
        hmint.2.1 hmint.2.2.1 (by simp; omega) (Or.inl ⟨rfl, rfl, rfl⟩)
      exact ⟨out, by simpa using h1, h2⟩

/-- Without `min_step`, arrays of at least two points behave as if `min_step` were the least
spacing `m` found in either array, so that every step is exactly the finer local spacing. -/
theorem intersection_default_step (t1 t2 : List α) (h1 : 2 ≤ t1.length) (h2 : 2 ≤ t2.length)
    (lo hi : Option α) :
    ∃ m, (IsSpacing t1 m ∨ IsSpacing t2 m) ∧ (∀ d, IsSpacing t1 d ∨ IsSpacing t2 d → m ≤ d) ∧
      intersection t1 t2 none lo hi = intersection t1 t2 (some m) lo hi ∧
      ∀ t t', Follows t1 t2 m t t' ↔
        ∃ d1 d2, LocalSpacing t1 t d1 ∧ LocalSpacing t2 t d2 ∧ t' = t + min d1 d2 := by
  obtain ⟨m1, e1, i1, l1⟩ := npMin_spec _ (diff_ne_nil t1 h1)
  obtain ⟨m2, e2, i2, l2⟩ := npMin_spec _ (diff_ne_nil t2 h2)
  have hle : ∀ d, IsSpacing t1 d ∨ IsSpacing t2 d → min m1 m2 ≤ d := by
    rintro d (h | h)
    · exact (min_le_left _ _).trans (l1 d ((mem_diff _ _).mpr h))
    · exact (min_le_right _ _).trans (l2 d ((mem_diff _ _).mpr h))
  refine ⟨min m1 m2, ?_, hle, ?_, ?_⟩
  · rcases min_choice m1 m2 with h | h <;> rw [h]
    · exact Or.inl ((mem_diff _ _).mp i1)
    · exact Or.inr ((mem_diff _ _).mp i2)
  · have : resolveStep t1 t2 none = resolveStep t1 t2 (some (min m1 m2)) := by
      simp only [resolveStep, e1, e2, ok_bind]; rfl
    cases t1 with
    | nil => simp at h1
    | cons a t1 =>
      cases t2 with
      | nil => simp at h2
      | cons b t2 => unfold intersection; simp only [this]
  · intro t t'
    constructor
    · rintro ⟨d1, d2, a1, a2, a3⟩
      refine ⟨d1, d2, a1, a2, ?_⟩
      rw [a3, max_eq_left]
      exact le_min (hle _ (Or.inl (spacing_isSpacing a1))) (hle _ (Or.inr (spacing_isSpacing a2)))
    · rintro ⟨d1, d2, a1, a2, a3⟩
      refine ⟨d1, d2, a1, a2, ?_⟩
      rw [a3, max_eq_left]
      exact le_min (hle _ (Or.inl (spacing_isSpacing a1))) (hle _ (Or.inr (spacing_isSpacing a2)))

/-- What the grid gives a user: the result is strictly increasing, lies in `[mint, maxt)`,
contains `mint` whenever that window is not empty, is empty exactly when the window is, and is
the only list that satisfies the specification. -/
theorem intersection_grid (t1 t2 : List α) (hs1 : t1.Pairwise (· < ·)) (hs2 : t2.Pairwise (· < ·))
    (step mint maxt : α) (out : List α) (h : Grid t1 t2 step maxt mint out) :
    out.Pairwise (· < ·) ∧ (∀ x ∈ out, mint ≤ x ∧ x < maxt) ∧
      (mint < maxt → out.head? = some mint) ∧ (out = [] ↔ maxt ≤ mint) ∧
      ∀ out', Grid t1 t2 step maxt mint out' → out' = out := by
  obtain ⟨h1, h2, h3, h4⟩ := grid_bounds hs1 hs2 h
  exact ⟨h1, h2, h4, h3, fun out' h' => grid_unique hs1 hs2 h' h⟩

/-- A single-point array without `min_step` is refused (`np.min` of an empty array). -/
theorem intersection_single_rejected (a : α) (t2 : List α) (lo hi : Option α) :
    intersection [a] t2 none lo hi = .error .valueError := by
  cases t2 with
  | nil => rfl
  | cons b l =>
    unfold intersection
    simp only [resolveStep, diff, npMin, error_bind, ite_self]

/-- The end of the common window is never part of the output, even when a step lands on it
exactly: two identical grids give back the grid without its last point. -/
example : intersection [0, 1, 2, 3] [0, 1, 2, 3] none none none = .ok [(0 : Int), 1, 2] := by decide

-- The hypotheses of `intersection_spec` are met by two interleaved grids with both limits.
example : [(0 : Int), 2, 4, 10].Pairwise (· < ·) ∧ [(1 : Int), 4, 5, 9].Pairwise (· < ·) ∧
    IsLatest (0 : Int) 1 (some 2) 2 ∧ IsEarliest (10 : Int) 9 (some 20) 9 ∧
    intersection [0, 2, 4, 10] [1, 4, 5, 9] (some 1) (some 2) (some 20)
      = .ok [(2 : Int), 4, 6] := by
  refine ⟨by decide, by decide, by simp [IsLatest], by simp [IsEarliest], by decide⟩

-- The refusing branch is reachable.
example : intersection [0, 2] [5, 9] (some 1) none none = (.error .valueError : Py (List Int)) := by
  decide

-- A non-empty grid exists, so that `intersection_grid` is not vacuous.
example : Grid [(0 : Int), 1] [0, 1] 1 1 0 [0] :=
  .next 0 1 [] (by decide)
    ⟨1, 1, ⟨0, 0, 1, rfl, rfl, rfl, by simp, by decide⟩, ⟨0, 0, 1, rfl, rfl, rfl, by simp, by decide⟩,
      by decide⟩
    (.stop 1 (by decide))

end Verif.Props.Intersection
