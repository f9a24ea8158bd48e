import Verif.Props.Catalog
import Verif.Props.ComMotionRest

/-!
# C95: the window and the numbers in the lines of the catalog
-/

namespace Verif.Props.CatalogWindow
open Verif Verif.Catalog Verif.ComMotion

/-- C95: the times in a line leave out the first hundredth and the last tenth of the time of the simulation; the position and the velocity are those of the fit to the motion between them, without acceleration. -/
theorem window_spec (h : Horizons) (x v : Vec) (t_i t_f : ℝ) (e : eacm h = .ok (x, v, t_i, t_f)) :
    ∃ t com first last, comMotion h none none none = .ok (t, com) ∧ t.head? = some first ∧ t.getLast? = some last ∧ t_i = first + (last - first) / 100 ∧ t_f = last - (last - first) / 10 ∧
      ∀ i, estimate t (com.map fun c => c i) (1 / 100) (1 / 10) false = (x i, v i, 0) := by
  unfold eacm at e
  cases hc : comMotion h none none none with
  | error y =>
    rw [hc] at e
    cases e
  | ok y =>
    obtain ⟨t, com⟩ := y
    rw [hc, ok_bind] at e
    rcases t with _ | ⟨a, l⟩
    · cases e
    · dsimp only at e
      rw [if_neg (List.cons_ne_nil a l)] at e
      have e := Except.ok.inj e
      simp only [Prod.mk.injEq] at e
      obtain ⟨e1, e2, e3, e4⟩ := e
      refine ⟨a :: l, com, a, (a :: l).getLast (by simp), rfl, rfl, List.getLast?_eq_some_getLast (by simp), ?_, ?_, fun i => ?_⟩
      · rw [← e3, List.getLast_eq_getElem]
        unfold windowTimes
        simp
        ring
      · rw [← e4, List.getLast_eq_getElem]
        unfold windowTimes
        simp
        ring
      · rw [← e1, ← e2]
        rfl

/-- Two black holes at two times. -/
example : ∃ x v, eacm { t := [0, 10], m_A := [1, 1], x_A := [fun _ => 1, fun _ => 2], m_B := [2, 2], x_B := [fun _ => 0, fun _ => 0] } = .ok (x, v, 1 / 10, 9) := by
  obtain ⟨com, hc⟩ : ∃ com, comMotion { t := [0, 10], m_A := [1, 1], x_A := [fun _ => 1, fun _ => 2], m_B := [2, 2], x_B := [fun _ => 0, fun _ => 0] } none none none = .ok ([0, 10], com) := by
    unfold comMotion bbh
    dsimp only
    rw [if_pos ⟨rfl, rfl, rfl, rfl⟩]
    exact ⟨_, rfl⟩
  unfold eacm
  rw [hc, ok_bind]
  dsimp only
  rw [if_neg (List.cons_ne_nil _ _)]
  have e : windowTimes [0, 10] (1 / 100) (1 / 10) = (1 / 10, 9) := by
    unfold windowTimes
    refine Prod.ext ?_ ?_ <;> norm_num
  rw [e]
  exact ⟨_, _, rfl⟩

end Verif.Props.CatalogWindow
