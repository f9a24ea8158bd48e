import Verif.Props.ComMotion

/-!
# C38: windows with any number of samples
-/

namespace Verif.Props.ComMotionRest

open Verif Verif.ComMotion Verif.Spec.ComMotion Verif.Lemmas.ComMotion Verif.Props.ComMotion

/-- For an even number of points the rule is exact for functions of degree one. -/
theorem simps_even (α β : ℝ) (L : List (ℝ × ℝ)) (n : Nat) (hl : L.length = 2 * n + 2) (hs : (L.map Prod.fst).Pairwise (· < ·)) (p q : ℝ × ℝ) (hp : L.head? = some p) (hq : L.getLast? = some q) :
    simps (L.map fun p => (p.1, α + β * p.1)) = (α * q.1 + β * q.1 ^ 2 / 2) - (α * p.1 + β * p.1 ^ 2 / 2) := by
  obtain ⟨p', s, l, e1⟩ : ∃ p' s l, L = p' :: s :: l := by
    rcases L with _ | ⟨a, _ | ⟨b, l⟩⟩
    · simp at hl
    · simp at hl
    · exact ⟨a, b, l, rfl⟩
  obtain ⟨m, r, q', e2⟩ : ∃ m r q', L = m ++ [r, q'] := by
    rcases h : L.reverse with _ | ⟨a, _ | ⟨b, l⟩⟩
    · have := congrArg List.length h
      simp [hl] at this
    · have := congrArg List.length h
      simp [hl] at this
    · exact ⟨l.reverse, b, a, by rw [← List.reverse_reverse L, h]; simp⟩
  obtain rfl : p' = p := by
    rw [e1] at hp
    simpa using hp
  obtain rfl : q' = q := by
    rw [e2] at hq
    simpa using hq
  have f1 : firstTrapezoid (L.map fun p => (p.1, α + β * p.1)) = (s.1 - p'.1) * ((α + β * p'.1) + (α + β * s.1)) / 2 := by
    rw [e1]
    rfl
  have f2 : lastTrapezoid (L.map fun p => (p.1, α + β * p.1)) = (q'.1 - r.1) * ((α + β * r.1) + (α + β * q'.1)) / 2 := by
    rw [e2]
    simp [lastTrapezoid]
  have zero : ∀ M : List (ℝ × ℝ), (M.map fun p => (p.1, α + β * p.1)) = M.map fun p => (p.1, α + β * p.1 + 0 * p.1 ^ 2) := fun M => by simp
  have b1 : basicSimpson ((L.map fun p => (p.1, α + β * p.1)).dropLast) = (α * r.1 + β * r.1 ^ 2 / 2) - (α * p'.1 + β * p'.1 ^ 2 / 2) := by
    have d : L.dropLast = m ++ [r] := by
      rw [e2, show m ++ [r, q'] = (m ++ [r]) ++ [q'] by simp, List.dropLast_concat]
    rw [← List.map_dropLast, zero, basic_exact α β 0 n L.dropLast p' r (by rw [List.length_dropLast]; omega) (hs.sublist ((List.dropLast_sublist L).map _))
      (by rw [e1]; rfl) (by rw [d]; simp)]
    ring
  have b2 : basicSimpson ((L.map fun p => (p.1, α + β * p.1)).tail) = (α * q'.1 + β * q'.1 ^ 2 / 2) - (α * s.1 + β * s.1 ^ 2 / 2) := by
    have d : L.tail = s :: l := by rw [e1]; rfl
    rw [← List.map_tail, zero, basic_exact α β 0 n L.tail s q' (by rw [List.length_tail]; omega) (hs.sublist ((List.tail_sublist L).map _))
      (by rw [d]; rfl) (by rw [d]; rw [e1] at hq; simpa using hq)]
    ring
  unfold simps
  rw [if_pos (by rw [List.length_map]; omega), f1, f2, b1, b2]
  ring

/-- Part of C38: a center of mass that rests is found exactly, for each window that ends at samples, with an even or an odd number of samples. -/
theorem rest_found (t : List ℝ) (hs : t.Pairwise (· < ·)) (skipB skipE : ℝ) (i j : Nat) (hi : t[i]? = some (windowTimes t skipB skipE).1) (hj : t[j]? = some (windowTimes t skipB skipE).2) (hij : i < j) (x : ℝ) :
    estimate t (t.map fun _ => x) skipB skipE false = (x, 0, 0) := by
  by_cases hpar : (j - i) % 2 = 0
  · have := estimate_exact_partial t hs skipB skipE i j ⟨hi, hj, hij, hpar⟩ x 0
    simpa using this
  have n1 := nearest_eq t hs _ i hi
  have n2 := nearest_eq t hs _ j hj
  obtain ⟨hil, hie⟩ := List.getElem?_eq_some_iff.mp hi
  obtain ⟨hjl, hje⟩ := List.getElem?_eq_some_iff.mp hj
  have hlt : t[i] < t[j] := List.pairwise_iff_getElem.mp hs i j hil hjl hij
  have hz : (t.zip (t.map fun _ => x)).map Prod.fst = t := List.map_fst_zip (by simp)
  have hzl : (t.zip (t.map fun _ => x)).length = t.length := by simp
  obtain ⟨w1, w2, w3, w4⟩ := window_facts (t.zip (t.map fun _ => x)) (by rw [hz]; exact hs) i j hij (by rw [hzl]; exact hjl)
  have g1 : (t.zip (t.map fun _ => x))[i]? = some (t[i], x) := by rw [List.getElem?_eq_getElem (by rw [hzl]; exact hil), List.getElem_zip, List.getElem_map]
  have g2 : (t.zip (t.map fun _ => x))[j]? = some (t[j], x) := by rw [List.getElem?_eq_getElem (by rw [hzl]; exact hjl), List.getElem_zip, List.getElem_map]
  have hmem : ∀ p ∈ window (t.zip (t.map fun _ => x)) i j, p.2 = x := by
    intro p hp
    have h1 : p ∈ t.zip (t.map fun _ => x) := List.mem_of_mem_take (List.mem_of_mem_drop hp)
    have h2 := (List.of_mem_zip (a := p.1) (b := p.2) h1).2
    obtain ⟨_, _, h⟩ := List.mem_map.1 h2
    exact h.symm
  rw [estimate_linear, n1, n2, ← hie, ← hje]
  have e0 : moment 0 (window (t.zip (t.map fun _ => x)) i j) = x * t[j] - x * t[i] := by
    unfold moment
    rw [show (window (t.zip (t.map fun _ => x)) i j).map (fun p => (p.1, p.1 ^ 0 * p.2)) = (window (t.zip (t.map fun _ => x)) i j).map fun p => (p.1, x + 0 * p.1) from
      List.map_congr_left fun p hp => by rw [hmem p hp]; simp,
      simps_even x 0 _ ((j - i) / 2) (by rw [w1]; omega) w2 _ _ (w3.trans g1) (w4.trans g2)]
    ring
  have e1 : moment 1 (window (t.zip (t.map fun _ => x)) i j) = x * t[j] ^ 2 / 2 - x * t[i] ^ 2 / 2 := by
    unfold moment
    rw [show (window (t.zip (t.map fun _ => x)) i j).map (fun p => (p.1, p.1 ^ 1 * p.2)) = (window (t.zip (t.map fun _ => x)) i j).map fun p => (p.1, 0 + x * p.1) from
      List.map_congr_left fun p hp => by rw [hmem p hp]; ring_nf,
      simps_even 0 x _ ((j - i) / 2) (by rw [w1]; omega) w2 _ _ (w3.trans g1) (w4.trans g2)]
    ring
  rw [e0, e1]
  generalize t[i] = a at *
  generalize t[j] = b at *
  have hne : b - a ≠ 0 := by linarith
  unfold linearFit
  refine Prod.ext ?_ (Prod.ext ?_ rfl) <;> simp only <;> field_simp <;> ring

/-- With an even number of samples uniform motion is not found: with two samples the velocity is three times too large. -/
theorem two_samples (v : ℝ) : estimate [0, 1] [0, v] 0 0 false = (-v, 3 * v, 0) := by
  have hw : windowTimes [0, 1] 0 0 = (0, 1) := by
    unfold windowTimes
    refine Prod.ext ?_ ?_ <;> norm_num
  have hs : ([0, 1] : List ℝ).Pairwise (· < ·) := by norm_num
  have n1 : nearest [0, 1] 0 = 0 := nearest_eq _ hs _ 0 rfl
  have n2 : nearest [0, 1] 1 = 1 := nearest_eq _ hs _ 1 rfl
  rw [estimate_linear, hw]
  simp only [n1, n2]
  have m0 : moment 0 (window (List.zip [0, 1] [0, v]) 0 1) = v / 2 := by
    simp [window, moment, simps, basicSimpson, firstTrapezoid, lastTrapezoid]
  have m1 : moment 1 (window (List.zip [0, 1] [0, v]) 0 1) = v / 2 := by
    simp [window, moment, simps, basicSimpson, firstTrapezoid, lastTrapezoid]
  rw [m0, m1]
  unfold linearFit
  refine Prod.ext ?_ (Prod.ext ?_ rfl) <;> simp only <;> ring

/-- A window with two samples. -/
example : ([0, 1, 2, 3] : List ℝ)[1]? = some (windowTimes [0, 1, 2, 3] (1 / 3) (1 / 3)).1 ∧ ([0, 1, 2, 3] : List ℝ)[2]? = some (windowTimes [0, 1, 2, 3] (1 / 3) (1 / 3)).2 := by
  have h : windowTimes [0, 1, 2, 3] (1 / 3) (1 / 3) = (1, 2) := by
    unfold windowTimes
    refine Prod.ext ?_ ?_ <;> norm_num
  rw [h]
  simp

end Verif.Props.ComMotionRest
