import Verif.Spec.SuperrestLoop

/-!
# Lemmas about errors and the best of them
-/

namespace Verif.Lemmas.SuperrestLoop

open Verif Verif.SuperrestLoop Verif.Spec.SuperrestLoop

theorem lt_trans' {a b c : Err} (h1 : a.lt b) (h2 : b.lt c) : a.lt c := by
  cases a <;> cases b <;> cases c <;> simp only [Err.lt] at * <;> linarith

theorem lt_irrefl' (a : Err) : ¬ a.lt a := by
  cases a <;> simp [Err.lt]

theorem lt_inf {a b : Err} (h : a.lt b) : a.lt .inf := by
  cases a <;> cases b <;> simp_all [Err.lt]

theorem not_nan_lt (a : Err) : ¬ Err.lt .nan a := by
  cases a <;> simp [Err.lt]

theorem not_inf_lt (a : Err) : ¬ Err.lt .inf a := by
  cases a <;> simp [Err.lt]

/-- `e < a` and `a` is not greater than the finite `y`. -/
theorem lt_of_not {e a y : Err} (h1 : e.lt a) (h2 : ¬ y.lt a) (h3 : y.lt .inf) : e.lt y := by
  cases e <;> cases a <;> cases y <;> simp only [Err.lt, not_lt] at * <;> first | linarith | trivial | contradiction

theorem lt_fold (l : List Err) (c e : Err) : e.lt (l.foldl (fun c e => if e.lt c then e else c) c) ↔ e.lt c ∧ ∀ x ∈ l, x.lt c → e.lt x := by
  induction l generalizing c with
  | nil => simp
  | cons x l ih =>
    rw [List.foldl_cons, ih]
    by_cases h : x.lt c
    · rw [if_pos h]
      constructor
      · rintro ⟨h1, h2⟩
        refine ⟨lt_trans' h1 h, fun y hy hc => ?_⟩
        rcases List.mem_cons.mp hy with rfl | hy
        · exact h1
        · by_cases h3 : y.lt x
          · exact h2 y hy h3
          · exact lt_of_not h1 h3 (lt_inf hc)
      · rintro ⟨_, h2⟩
        exact ⟨h2 x (by simp) h, fun y hy hx => h2 y (by simp [hy]) (lt_trans' hx h)⟩
    · rw [if_neg h]
      constructor
      · rintro ⟨h1, h2⟩
        refine ⟨h1, fun y hy hc => ?_⟩
        rcases List.mem_cons.mp hy with rfl | hy
        · exact absurd hc h
        · exact h2 y hy hc
      · rintro ⟨h1, h2⟩
        exact ⟨h1, fun y hy hc => h2 y (by simp [hy]) hc⟩

/-- Less than `min([inf] + l)`. -/
theorem lt_pyMin (l : List Err) (e : Err) : e.lt (pyMin (.inf :: l)) ↔ e.lt .inf ∧ ∀ x ∈ l, x.lt .inf → e.lt x := lt_fold l .inf e

/-- A new best error. -/
theorem firstBest_new (l : List Err) (e : Err) (h : e.lt (pyMin (.inf :: l))) : FirstBest (l ++ [e]) l.length := by
  obtain ⟨h1, h2⟩ := (lt_pyMin l e).mp h
  refine ⟨e, by simp, h1, fun j e' hj hlt => ?_, fun j e' hj he' hf => ?_⟩
  · rcases lt_trichotomy j l.length with hl | hl | hl
    · rw [List.getElem?_append_left hl] at hj
      exact lt_irrefl' e (lt_trans' (h2 e' (List.mem_of_getElem? hj) (lt_inf hlt)) hlt)
    · subst hl
      rw [List.getElem?_concat_length] at hj
      cases hj
      exact lt_irrefl' _ hlt
    · rw [List.getElem?_eq_none (by simp; omega)] at hj
      cases hj
  · rw [List.getElem?_append_left hj] at he'
    exact h2 e' (List.mem_of_getElem? he') hf

/-- The best error stays. -/
theorem firstBest_old (l : List Err) (e : Err) (i : Nat) (hi : FirstBest l i) (h : ¬ e.lt (pyMin (.inf :: l))) : FirstBest (l ++ [e]) i := by
  obtain ⟨c, h1, h2, h3, h4⟩ := hi
  have hil : i < l.length := (List.getElem?_eq_some_iff.mp h1).1
  refine ⟨c, by rw [List.getElem?_append_left hil, h1], h2, fun j e' hj hlt => ?_, fun j e' hj he' hf => ?_⟩
  · rcases lt_trichotomy j l.length with hl | hl | hl
    · rw [List.getElem?_append_left hl] at hj
      exact h3 j e' hj hlt
    · subst hl
      rw [List.getElem?_concat_length] at hj
      cases hj
      refine h ((lt_pyMin l e).mpr ⟨lt_inf hlt, fun x hx hf => ?_⟩)
      obtain ⟨k, hk⟩ := List.getElem?_of_mem hx
      exact lt_of_not hlt (h3 k x hk) hf
    · rw [List.getElem?_eq_none (by simp; omega)] at hj
      cases hj
  · rw [List.getElem?_append_left (by omega)] at he'
    exact h4 j e' hj he' hf

theorem noneFinite_old (l : List Err) (e : Err) (hl : NoneFinite l) (h : ¬ e.lt (pyMin (.inf :: l))) : NoneFinite (l ++ [e]) := by
  intro x hx
  rcases List.mem_append.mp hx with hx | hx
  · exact hl x hx
  · rw [List.mem_singleton] at hx
    subst hx
    exact fun hf => h ((lt_pyMin l x).mpr ⟨hf, fun y hy hy' => absurd hy' (hl y hy)⟩)

theorem mean_eq (r : Rel) : r.mean = mean r := by
  rcases r with _ | ⟨a, b, c⟩ | e
  · rfl
  · cases a <;> cases b <;> cases c <;> rfl
  · rfl

theorem met_iff (x y z : Err) (r : Rel) : converged (x, y, z) r ↔ Met x y z r := by
  rcases r with _ | ⟨a, b, c⟩ | e
  · exact ⟨fun h => h.elim, fun ⟨_, _, _, h, _⟩ => by cases h⟩
  · exact ⟨fun h => ⟨a, b, c, rfl, h⟩, fun ⟨_, _, _, h, h'⟩ => by cases h; exact h'⟩
  · exact ⟨fun h => h.elim, fun ⟨_, _, _, h, _⟩ => by cases h⟩

end Verif.Lemmas.SuperrestLoop
