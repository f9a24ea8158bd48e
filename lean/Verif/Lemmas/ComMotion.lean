import Verif.Spec.ComMotion
import Mathlib.Tactic.Linarith
import Mathlib.Tactic.FieldSimp
import Mathlib.Tactic.Ring

/-!
# Simpson's rule and `argmin`
-/

namespace Verif.Lemmas.ComMotion

open Verif Verif.ComMotion Verif.Spec.ComMotion

theorem panel_add (a b c : ℝ) (u v w u' v' w' : ℝ) : panel (a, u + u') (b, v + v') (c, w + w') = panel (a, u) (b, v) (c, w) + panel (a, u') (b, v') (c, w') := by
  simp only [panel]; ring

theorem panel_smul (a b c k : ℝ) (u v w : ℝ) : panel (a, k * u) (b, k * v) (c, k * w) = k * panel (a, u) (b, v) (c, w) := by
  simp only [panel]; ring

theorem basic_add (f g : ℝ × ℝ → ℝ) : ∀ L : List (ℝ × ℝ), basicSimpson (L.map fun p => (p.1, f p + g p)) = basicSimpson (L.map fun p => (p.1, f p)) + basicSimpson (L.map fun p => (p.1, g p))
  | [] => by simp [basicSimpson]
  | [_] => by simp [basicSimpson]
  | [_, _] => by simp [basicSimpson]
  | p0 :: p1 :: p2 :: l => by
    have ih := basic_add f g (p2 :: l)
    simp only [List.map_cons] at ih ⊢
    rw [basicSimpson, basicSimpson, basicSimpson, ih, panel_add]
    ring

theorem basic_smul (k : ℝ) (f : ℝ × ℝ → ℝ) : ∀ L : List (ℝ × ℝ), basicSimpson (L.map fun p => (p.1, k * f p)) = k * basicSimpson (L.map fun p => (p.1, f p))
  | [] => by simp [basicSimpson]
  | [_] => by simp [basicSimpson]
  | [_, _] => by simp [basicSimpson]
  | p0 :: p1 :: p2 :: l => by
    have ih := basic_smul k f (p2 :: l)
    simp only [List.map_cons] at ih ⊢
    rw [basicSimpson, basicSimpson, ih, panel_smul]
    ring

theorem panel_exact (a b c α β γ : ℝ) (h1 : a < b) (h2 : b < c) :
    panel (a, α + β * a + γ * a ^ 2) (b, α + β * b + γ * b ^ 2) (c, α + β * c + γ * c ^ 2) = (α * c + β * c ^ 2 / 2 + γ * c ^ 3 / 3) - (α * a + β * a ^ 2 / 2 + γ * a ^ 3 / 3) := by
  have e1 : b - a ≠ 0 := by linarith
  have e2 : c - b ≠ 0 := by linarith
  simp only [panel]
  field_simp
  ring

theorem basic_exact (α β γ : ℝ) : ∀ (n : Nat) (L : List (ℝ × ℝ)) (p q : ℝ × ℝ), L.length = 2 * n + 1 → (L.map Prod.fst).Pairwise (· < ·) → L.head? = some p → L.getLast? = some q →
    basicSimpson (L.map fun p => (p.1, α + β * p.1 + γ * p.1 ^ 2)) = (α * q.1 + β * q.1 ^ 2 / 2 + γ * q.1 ^ 3 / 3) - (α * p.1 + β * p.1 ^ 2 / 2 + γ * p.1 ^ 3 / 3)
  | 0, [a], p, q, _, _, hp, hq => by
    simp at hp hq
    subst hp; subst hq
    simp [basicSimpson]
  | n + 1, p0 :: p1 :: p2 :: l, p, q, hl, hs, hp, hq => by
    have ih := basic_exact α β γ n (p2 :: l) p2 q (by simp at hl ⊢; omega) (by
      simp only [List.map_cons, List.pairwise_cons] at hs ⊢
      exact hs.2.2) rfl (by simpa using hq)
    simp only [List.map_cons, List.pairwise_cons] at hs ih ⊢
    rw [basicSimpson, ih, panel_exact p0.1 p1.1 p2.1 α β γ (hs.1 _ (by simp)) (hs.2.1 _ (by simp))]
    simp at hp
    subst hp
    ring
  | n + 1, [], _, _, hl, _, _, _ => by simp at hl
  | n + 1, [_], _, _, hl, _, _, _ => by simp at hl
  | n + 1, [_, _], _, _, hl, _, _, _ => by simp at hl
  | 0, [], _, _, hl, _, _, _ => by simp at hl
  | 0, _ :: _ :: _, _, _, hl, _, _, _ => by simp at hl

theorem simps_odd (f : ℝ × ℝ → ℝ) (L : List (ℝ × ℝ)) (h : L.length % 2 = 1) : simps (L.map fun p => (p.1, f p)) = basicSimpson (L.map fun p => (p.1, f p)) := by
  unfold simps
  rw [if_neg (by rw [List.length_map]; omega)]

theorem argmin_lt : ∀ l : List ℝ, l ≠ [] → argmin l < l.length
  | [_], _ => by simp [argmin]
  | a :: b :: l, _ => by
    have ih := argmin_lt (b :: l) (by simp)
    rw [argmin]
    split_ifs <;> simp at * <;> omega

theorem argmin_le : ∀ (l : List ℝ), ∀ x ∈ l, l.getD (argmin l) 0 ≤ x
  | [], x, h => by simp at h
  | [a], x, h => by simp at h; simp [argmin, h]
  | a :: b :: l, x, h => by
    have ih := argmin_le (b :: l)
    rw [argmin]
    rcases List.mem_cons.mp h with rfl | h
    · split_ifs with hc
      · rw [List.getD_cons_succ]; exact hc.le
      · simp
    · split_ifs with hc
      · rw [List.getD_cons_succ]; exact ih x h
      · have := ih x h
        simp only [List.getD_cons_zero]
        exact (not_lt.mp hc).trans this

/-- A sample that is in the list is the nearest. -/
theorem nearest_eq (t : List ℝ) (hs : t.Pairwise (· < ·)) (s : ℝ) (k : Nat) (hk : t[k]? = some s) : nearest t s = k := by
  obtain ⟨hkl, hks⟩ := List.getElem?_eq_some_iff.mp hk
  unfold nearest
  have hne : (t.map fun x => |x - s|) ≠ [] := by
    intro h
    have : t = [] := by simpa using h
    rw [this] at hkl
    simp at hkl
  have h1 := argmin_lt _ hne
  have h2 := argmin_le (t.map fun x => |x - s|) 0 (List.mem_map.mpr ⟨s, by rw [← hks]; exact List.getElem_mem _, by simp⟩)
  generalize argmin (t.map fun x => |x - s|) = n at *
  rw [List.length_map] at h1
  rw [List.getD_eq_getElem?_getD, List.getElem?_map, List.getElem?_eq_getElem h1, Option.map_some, Option.getD_some] at h2
  have h3 : t[n] = s := by
    have := abs_nonpos_iff.mp h2
    linarith
  have hnd : t.Nodup := hs.imp (fun h => h.ne)
  exact (List.Nodup.getElem_inj_iff hnd).mp (h3.trans hks.symm)

theorem window_facts (L : List (ℝ × ℝ)) (hs : (L.map Prod.fst).Pairwise (· < ·)) (i j : Nat) (hij : i < j) (hj : j < L.length) :
    (window L i j).length = j + 1 - i ∧ ((window L i j).map Prod.fst).Pairwise (· < ·) ∧ (window L i j).head? = L[i]? ∧ (window L i j).getLast? = L[j]? := by
  have hlen : (window L i j).length = j + 1 - i := by simp [window]; omega
  refine ⟨hlen, ?_, ?_, ?_⟩
  · unfold window
    rw [List.map_drop, List.map_take]
    exact (hs.sublist (List.take_sublist _ _)).sublist (List.drop_sublist _ _)
  · rw [List.head?_eq_getElem?]
    unfold window
    rw [List.getElem?_drop, List.getElem?_take]
    simp
    omega
  · rw [List.getLast?_eq_getElem?, hlen]
    unfold window
    rw [List.getElem?_drop, List.getElem?_take]
    have : i + (j + 1 - i - 1) = j := by omega
    rw [this, if_pos (by omega)]

/-- Simpson's rule on the window, for functions of the sample. -/
noncomputable def J (L : List (ℝ × ℝ)) (f : ℝ × ℝ → ℝ) : ℝ := basicSimpson (L.map fun p => (p.1, f p))

theorem J_add (L : List (ℝ × ℝ)) (f g : ℝ × ℝ → ℝ) : J L (fun p => f p + g p) = J L f + J L g := basic_add f g L
theorem J_smul (L : List (ℝ × ℝ)) (k : ℝ) (f : ℝ × ℝ → ℝ) : J L (fun p => k * f p) = k * J L f := basic_smul k f L

theorem J_congr (L : List (ℝ × ℝ)) (f g : ℝ × ℝ → ℝ) (h : ∀ p ∈ L, f p = g p) : J L f = J L g := by
  unfold J
  congr 1
  exact List.map_congr_left (fun p hp => by rw [h p hp])

end Verif.Lemmas.ComMotion
