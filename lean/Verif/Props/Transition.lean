import Verif.Lemmas.Transition

/-!
# C24, C25: transition functions
-/

namespace Verif.Props.Transition
open Verif Verif.Transition Verif.Spec.Transition

/-- Sorted in increasing order. -/
abbrev Sorted (x : List ℝ) : Prop := x.Pairwise (· ≤ ·)

theorem map_loop (x0 x1 : ℝ) (f g h : ℝ → ℝ) (a b c : List ℝ) (ha : ∀ x ∈ a, x ≤ x0) (hb : ∀ x ∈ b, ¬ x ≤ x0 ∧ x < x1)
    (hc : ∀ x ∈ c, ¬ x ≤ x0 ∧ ¬ x < x1) :
    (a ++ (b ++ c)).map (fun x => if x ≤ x0 then f x else if x < x1 then g x else h x) = a.map f ++ b.map g ++ c.map h := by
  simp only [List.map_append, List.append_assoc]
  congr 1
  · exact List.map_congr_left fun x hx => if_pos (ha x hx)
  · congr 1
    · exact List.map_congr_left fun x hx => by rw [if_neg (hb x hx).1, if_pos (hb x hx).2]
    · exact List.map_congr_left fun x hx => by rw [if_neg (hc x hx).1, if_neg (hc x hx).2]

/-- The parts of the array before, in and after the transition. -/
theorem parts (x : List ℝ) (hx : Sorted x) (x0 x1 : ℝ) (hend : ∃ z ∈ x, x0 < z ∧ x1 ≤ z) :
    ∃ a b c, x = a ++ (b ++ c) ∧ (∀ z ∈ a, z ≤ x0) ∧ (∀ z ∈ b, ¬ z ≤ x0 ∧ z < x1) ∧ (∀ z ∈ c, ¬ z ≤ x0 ∧ ¬ z < x1) ∧ Sorted c ∧ c ≠ [] ∧
      (∀ f : ℝ → ℝ, loop (· ≤ x0) f x = .ok (a.map f, b ++ c)) ∧ ∀ f : ℝ → ℝ, loop (· < x1) f (b ++ c) = .ok (b.map f, c) := by
  obtain ⟨z, hz, h0, h1⟩ := hend
  obtain ⟨a, r, e1, l1, pa, pr, sr⟩ := loop_sorted (· ≤ x0) (fun x => x) (fun x y h h' => h.trans h') x hx ⟨z, hz, not_le.mpr h0⟩
  have hzr : z ∈ r := by
    rw [e1] at hz
    rcases List.mem_append.mp hz with h | h
    · exact absurd (pa z h) (not_le.mpr h0)
    · exact h
  obtain ⟨b, c, e2, l2, pb, pc, sc⟩ := loop_sorted (· < x1) (fun x => x) (fun x y h h' => lt_of_le_of_lt h h') r sr ⟨z, hzr, not_lt.mpr h1⟩
  have hzc : z ∈ c := by
    rw [e2] at hzr
    rcases List.mem_append.mp hzr with h | h
    · exact absurd (pb z h) (not_lt.mpr h1)
    · exact h
  have split : ∀ (p : ℝ → Prop) [DecidablePred p] (f : ℝ → ℝ) (u v : List ℝ), (∀ z ∈ u, p z) → (∀ z ∈ v, ¬ p z) → v ≠ [] →
      loop p f (u ++ v) = .ok (u.map f, v) := by
    intro p _ f u v hu hv hne
    induction u with
    | nil =>
      cases v with
      | nil => exact absurd rfl hne
      | cons y ys => rw [List.nil_append, loop, if_neg (hv y (by simp))]; rfl
    | cons y ys ih =>
      rw [List.cons_append, loop, if_pos (hu y (by simp)), ih (fun z hz => hu z (List.mem_cons_of_mem _ hz))]; rfl
  refine ⟨a, b, c, by rw [e1, e2], pa, fun w hw => ⟨pr w (by rw [e2]; exact List.mem_append_left _ hw), pb w hw⟩,
    fun w hw => ⟨pr w (by rw [e2]; exact List.mem_append_right _ hw), pc w hw⟩, sc, List.ne_nil_of_mem hzc, ?_, ?_⟩
  · intro f; rw [e1, e2]
    exact split (· ≤ x0) f a (b ++ c) pa (fun w hw => pr w (by rw [e2]; exact hw)) (List.ne_nil_of_mem (List.mem_append_right _ hzc))
  · intro f; exact split (· < x1) f b c pb pc (List.ne_nil_of_mem hzc)

/-- The size of the interval in units of which the transition is cut off: within this distance of `x0` the value is `y0`. -/
noncomputable def cutoff (x0 x1 x : ℝ) : Prop := x0 < x ∧ x < x1 ∧ maxexp ≤ (x1 - x0) / (x - x0) - (x1 - x0) / (x1 - x)

theorem cutoff_iff {x0 x1 x : ℝ} (h0 : x0 < x) (h1 : x < x1) : cutoff x0 x1 x ↔ exponent x0 x1 x ≥ maxexp := by
  unfold cutoff; rw [exponent_eq h0 h1]; exact ⟨fun h => h.2.2, fun h => ⟨h0, h1, h⟩⟩

/-- C24: every value of `transition_function` on a sorted array that reaches `x1` is the smooth step, except that it is
`y0` where the exponent exceeds the cutoff; the indices count the numbers before and in the transition. -/
theorem transition_spec (x : List ℝ) (hx : Sorted x) (x0 x1 y0 y1 : ℝ) (hend : ∃ z ∈ x, x0 < z ∧ x1 ≤ z) :
    ∃ y i0 i1, transitionFunction x x0 x1 y0 y1 = .ok (y, i0, i1) ∧ y.length = x.length ∧ i0 ≤ i1 ∧ i1 ≤ x.length ∧
      ∀ (k : Nat) (z : ℝ), x[k]? = some z → (k < i0 ↔ z ≤ x0) ∧ (k < i1 ↔ z ≤ x0 ∨ z < x1) ∧
        (¬ cutoff x0 x1 z → y[k]? = some (step x0 x1 y0 y1 z)) ∧ (cutoff x0 x1 z → y[k]? = some y0) := by
  obtain ⟨a, b, c, e, pa, pb, pc, -, -, l1, l2⟩ := parts x hx x0 x1 hend
  refine ⟨_, _, _, by unfold transitionFunction; rw [l1, ok_bind]; simp only; rw [l2, ok_bind]; rfl, ?_, by simp, by rw [e]; simp, ?_⟩
  · rw [e]; simp
  · intro k z hk
    have hy : (a.map (fun _ => y0) ++ b.map (inside x0 x1 y0 y1) ++ c.map (fun _ => y1))[k]? = some (value x0 x1 y0 y1 z) := by
      rw [← map_loop x0 x1 _ _ _ a b c pa pb pc, ← e, List.getElem?_map, hk]; rfl
    have hmem : ∀ z, x[k]? = some z → (k < a.length → z ∈ a) ∧ (a.length ≤ k → k < a.length + b.length → z ∈ b) ∧
        (a.length + b.length ≤ k → z ∈ c) := by
      intro z hz
      rw [e] at hz
      refine ⟨fun h => ?_, fun h h' => ?_, fun h => ?_⟩
      · rw [List.getElem?_append_left h] at hz; exact List.mem_of_getElem? hz
      · rw [List.getElem?_append_right h, List.getElem?_append_left (by omega)] at hz; exact List.mem_of_getElem? hz
      · rw [List.getElem?_append_right (by omega), List.getElem?_append_right (by omega)] at hz; exact List.mem_of_getElem? hz
    obtain ⟨m1, m2, m3⟩ := hmem z hk
    simp only [List.length_map]
    refine ⟨⟨fun h => pa z (m1 h), fun h => ?_⟩, ⟨fun h => ?_, fun h => ?_⟩, fun hc => ?_, fun hc => ?_⟩
    · by_contra hn
      by_cases h' : k < a.length + b.length
      · exact (pb z (m2 (by omega) h')).1 h
      · exact (pc z (m3 (by omega))).1 h
    · by_cases h' : k < a.length
      · exact Or.inl (pa z (m1 h'))
      · exact Or.inr (pb z (m2 (by omega) h)).2
    · by_contra hn
      have := pc z (m3 (by omega))
      rcases h with h | h
      · exact this.1 h
      · exact this.2 h
    · rw [hy]; congr 1
      unfold value step inside
      by_cases h0 : z ≤ x0
      · rw [if_pos h0, if_pos h0]
      · by_cases h1 : z < x1
        · rw [cutoff_iff (not_le.mp h0) h1] at hc
          rw [if_neg h0, if_pos h1, if_neg hc, if_neg h0, if_pos h1, exponent_eq (not_le.mp h0) h1]
        · rw [if_neg h0, if_neg h1, if_neg h0, if_neg h1]
    · rw [hy]; congr 1
      unfold value inside
      rw [if_neg (not_le.mpr hc.1), if_pos hc.2.1, if_pos ((cutoff_iff hc.1 hc.2.1).mp hc)]

/-- The value at each number. -/
theorem transition_value (x : List ℝ) (hx : Sorted x) (x0 x1 y0 y1 : ℝ) (hend : ∃ z ∈ x, x0 < z ∧ x1 ≤ z) :
    ∃ i0 i1, transitionFunction x x0 x1 y0 y1 = .ok (x.map (value x0 x1 y0 y1), i0, i1) := by
  obtain ⟨a, b, c, e, pa, pb, pc, -, -, l1, l2⟩ := parts x hx x0 x1 hend
  refine ⟨(a.map fun _ => y0).length, (a.map fun _ => y0).length + (b.map (inside x0 x1 y0 y1)).length, ?_⟩
  have hv : x.map (value x0 x1 y0 y1) = a.map (fun _ => y0) ++ b.map (inside x0 x1 y0 y1) ++ c.map (fun _ => y1) := by
    rw [e]; exact map_loop x0 x1 _ _ _ a b c pa pb pc
  unfold transitionFunction; rw [l1, ok_bind]; simp only; rw [l2, ok_bind, hv]; rfl

/-- C24: before `x0` and after `x1` the values are exactly `y0` and `y1`. -/
theorem transition_outside (x : List ℝ) (hx : Sorted x) (x0 x1 y0 y1 : ℝ) (hend : ∃ z ∈ x, x0 < z ∧ x1 ≤ z) (y : List ℝ) (i0 i1 : Nat)
    (h : transitionFunction x x0 x1 y0 y1 = .ok (y, i0, i1)) (k : Nat) (z : ℝ) (hk : x[k]? = some z) :
    (z ≤ x0 → y[k]? = some y0) ∧ (x0 < z → x1 ≤ z → y[k]? = some y1) := by
  obtain ⟨j0, j1, h'⟩ := transition_value x hx x0 x1 y0 y1 hend
  rw [h'] at h; cases h
  rw [List.getElem?_map, hk]
  refine ⟨fun h => ?_, fun h h1 => ?_⟩
  · show some (value x0 x1 y0 y1 z) = _; rw [value, if_pos h]
  · show some (value x0 x1 y0 y1 z) = _; rw [value, if_neg (not_le.mpr h), if_neg (not_lt.mpr h1)]

/-- C24: the values lie between `y0` and `y1`; they are strictly between where the exponent is below the cutoff,
in particular everywhere but in the first seven hundredth part of the interval. -/
theorem transition_between_partial (x : List ℝ) (hx : Sorted x) (x0 x1 y0 y1 : ℝ) (hy : y0 < y1) (hend : ∃ z ∈ x, x0 < z ∧ x1 ≤ z) (y : List ℝ)
    (i0 i1 : Nat) (h : transitionFunction x x0 x1 y0 y1 = .ok (y, i0, i1)) (k : Nat) (z v : ℝ) (hk : x[k]? = some z) (hv : y[k]? = some v) :
    y0 ≤ v ∧ v ≤ y1 ∧ (x0 < z → z < x1 → v < y1) ∧ (x0 + (x1 - x0) / 700 ≤ z → x0 < z → y0 < v) := by
  obtain ⟨j0, j1, h'⟩ := transition_value x hx x0 x1 y0 y1 hend
  rw [h'] at h; cases h
  rw [List.getElem?_map, hk] at hv
  cases hv
  rw [value_share]
  have n := share_nonneg x0 x1 z
  have o := share_le_one x0 x1 z
  have hd : 0 < y1 - y0 := by linarith
  refine ⟨by nlinarith, by nlinarith, fun h0 h1 => ?_, fun h7 h0 => ?_⟩
  · have : share x0 x1 z < 1 := by
      unfold share
      rw [if_neg (not_le.mpr h0), if_pos h1]
      split_ifs
      · exact zero_lt_one
      · exact frac_lt _
    nlinarith
  · have : 0 < share x0 x1 z := by
      unfold share
      rw [if_neg (not_le.mpr h0)]
      by_cases h1 : z < x1
      · rw [if_pos h1, if_neg]
        · exact frac_pos _
        · rw [exponent_eq h0 h1]
          have e1 : (x1 - x0) / (z - x0) ≤ 700 := by
            rw [div_le_iff₀ (by linarith)]; linarith
          have e2 : 0 < (x1 - x0) / (x1 - z) := div_pos (by linarith) (by linarith)
          have := maxexp_gt
          intro h; linarith
      · rw [if_neg h1]; exact zero_lt_one
    nlinarith

/-- C24: the values are monotone. -/
theorem transition_monotone (x : List ℝ) (hx : Sorted x) (x0 x1 y0 y1 : ℝ) (hend : ∃ z ∈ x, x0 < z ∧ x1 ≤ z) (y : List ℝ) (i0 i1 : Nat)
    (h : transitionFunction x x0 x1 y0 y1 = .ok (y, i0, i1)) :
    (y0 ≤ y1 → y.Pairwise (· ≤ ·)) ∧ (y1 ≤ y0 → y.Pairwise (· ≥ ·)) := by
  obtain ⟨j0, j1, h'⟩ := transition_value x hx x0 x1 y0 y1 hend
  rw [h'] at h; cases h
  constructor
  · intro hy
    rw [List.pairwise_map]
    refine hx.imp fun {u v} huv => ?_
    rw [value_share, value_share]
    have := share_mono x0 x1 huv
    nlinarith
  · intro hy
    rw [List.pairwise_map]
    refine hx.imp fun {u v} huv => ?_
    rw [value_share, value_share]
    have := share_mono x0 x1 huv
    show _ ≤ _
    nlinarith

/-- C24: the transition is antisymmetric about its midpoint, up to the cutoff at `exp(-maxexp)`. -/
theorem transition_antisymmetric_partial (x x' : List ℝ) (hx : Sorted x) (hx' : Sorted x') (x0 x1 y0 y1 : ℝ) (h01 : x0 < x1)
    (hend : ∃ z ∈ x, x0 < z ∧ x1 ≤ z) (hend' : ∃ z ∈ x', x0 < z ∧ x1 ≤ z) (y y' : List ℝ)
    (i0 i1 i0' i1' : Nat) (h : transitionFunction x x0 x1 y0 y1 = .ok (y, i0, i1)) (h' : transitionFunction x' x0 x1 y0 y1 = .ok (y', i0', i1'))
    (k k' : Nat) (z v v' : ℝ) (hk : x[k]? = some z) (hk' : x'[k']? = some (x0 + x1 - z)) (hv : y[k]? = some v) (hv' : y'[k']? = some v') :
    |v + v' - (y0 + y1)| ≤ |y1 - y0| * Real.exp (-maxexp) ∧
      (¬ cutoff x0 x1 z → ¬ cutoff x0 x1 (x0 + x1 - z) → v + v' = y0 + y1) := by
  obtain ⟨j0, j1, g⟩ := transition_value x hx x0 x1 y0 y1 hend
  rw [g] at h; cases h
  obtain ⟨j0', j1', g'⟩ := transition_value x' hx' x0 x1 y0 y1 hend'
  rw [g'] at h'; cases h'
  rw [List.getElem?_map, hk] at hv
  rw [List.getElem?_map, hk'] at hv'
  cases hv; cases hv'
  rw [value_share, value_share]
  have hpos := Real.exp_pos (-maxexp)
  have small : ∀ u, maxexp ≤ u → 1 / (1 + Real.exp u) ≤ Real.exp (-maxexp) := by
    intro u hu
    rw [Real.exp_neg, ← one_div]
    exact one_div_le_one_div_of_le (Real.exp_pos _) (by linarith [Real.exp_le_exp.mpr hu])
  have refl : ∀ u, 1 / (1 + Real.exp u) + 1 / (1 + Real.exp (-u)) = 1 := by
    intro u
    rw [Real.exp_neg]
    have := Real.exp_pos u
    field_simp; ring
  have hs : |share x0 x1 z + share x0 x1 (x0 + x1 - z) - 1| ≤ Real.exp (-maxexp) ∧
      (¬ cutoff x0 x1 z → ¬ cutoff x0 x1 (x0 + x1 - z) → share x0 x1 z + share x0 x1 (x0 + x1 - z) = 1) := by
    by_cases a0 : z ≤ x0
    · have e : share x0 x1 z + share x0 x1 (x0 + x1 - z) = 1 := by
        unfold share
        rw [if_pos a0, if_neg (by linarith), if_neg (by linarith), zero_add]
      exact ⟨by rw [e]; simpa using hpos.le, fun _ _ => e⟩
    by_cases a1 : z < x1
    swap
    · have e : share x0 x1 z + share x0 x1 (x0 + x1 - z) = 1 := by
        have b0 : x0 + x1 - z ≤ x0 := by linarith
        unfold share
        rw [if_neg a0, if_neg a1, if_pos b0, add_zero]
      exact ⟨by rw [e]; simpa using hpos.le, fun _ _ => e⟩
    have b0 : ¬ x0 + x1 - z ≤ x0 := by linarith
    have b1 : x0 + x1 - z < x1 := by linarith
    have hr := exponent_reflect (not_le.mp a0) a1
    rw [cutoff_iff (not_le.mp a0) a1, cutoff_iff (not_le.mp b0) b1]
    have s1 : share x0 x1 z = if exponent x0 x1 z ≥ maxexp then 0 else 1 / (1 + Real.exp (exponent x0 x1 z)) := by
      unfold share; rw [if_neg a0, if_pos a1]
    have s2 : share x0 x1 (x0 + x1 - z) = if -exponent x0 x1 z ≥ maxexp then 0 else 1 / (1 + Real.exp (-exponent x0 x1 z)) := by
      unfold share; rw [if_neg b0, if_pos b1, hr]
    rw [s1, s2, hr]
    generalize exponent x0 x1 z = u
    have hm := maxexp_pos
    by_cases c1 : u ≥ maxexp
    · have c2 : ¬ -u ≥ maxexp := by intro h; linarith
      rw [if_pos c1, if_neg c2]
      refine ⟨?_, fun h => absurd c1 h⟩
      have := refl u
      have e : 0 + 1 / (1 + Real.exp (-u)) - 1 = -(1 / (1 + Real.exp u)) := by linarith
      rw [e, abs_neg, abs_of_pos (frac_pos u)]
      exact small u c1
    · by_cases c2 : -u ≥ maxexp
      · rw [if_neg c1, if_pos c2]
        refine ⟨?_, fun _ h => absurd c2 h⟩
        have := refl u
        have e : 1 / (1 + Real.exp u) + 0 - 1 = -(1 / (1 + Real.exp (-u))) := by linarith
        rw [e, abs_neg, abs_of_pos (frac_pos _)]
        exact small _ c2
      · rw [if_neg c1, if_neg c2]
        refine ⟨?_, fun _ _ => refl u⟩
        rw [refl u]; simpa using hpos.le
  constructor
  · have e : y0 + (y1 - y0) * share x0 x1 z + (y0 + (y1 - y0) * share x0 x1 (x0 + x1 - z)) - (y0 + y1) =
        (y1 - y0) * (share x0 x1 z + share x0 x1 (x0 + x1 - z) - 1) := by ring
    rw [e, abs_mul]
    exact mul_le_mul_of_nonneg_left hs.1 (abs_nonneg _)
  · intro c1 c2
    have := hs.2 c1 c2
    linear_combination (y1 - y0) * this

/-- C24, running off the end: if the array does not reach `x1`, or does not go beyond `x0`, the compiled loops read
past its end. -/
theorem transition_not_reached (x : List ℝ) (x0 x1 y0 y1 : ℝ) (h : (∀ z ∈ x, z < x1) ∨ (∀ z ∈ x, z ≤ x0)) :
    transitionFunction x x0 x1 y0 y1 = .error .outOfBounds := by
  unfold transitionFunction
  rcases h with h | h
  · cases hl : loop (· ≤ x0) (fun _ => y0) x with
    | error e => rw [loop_error _ _ x e hl]; rfl
    | ok r =>
      obtain ⟨a, b⟩ := r
      rw [ok_bind]
      simp only
      rw [loop_all _ _ b (fun z hz => h z (loop_total _ _ x a b hl z hz))]; rfl
  · rw [loop_all _ _ x h]; rfl

/-! ### Derivative -/

theorem derivative_list (x : List ℝ) (hx : Sorted x) (x0 x1 y0 y1 : ℝ) (hend : ∃ z ∈ x, x0 < z ∧ x1 ≤ z) :
    transitionFunctionDerivative x x0 x1 y0 y1 = .ok (x.map (derivative x0 x1 y0 y1)) := by
  obtain ⟨a, b, c, e, pa, pb, pc, -, -, l1, l2⟩ := parts x hx x0 x1 hend
  unfold transitionFunctionDerivative; rw [l1, ok_bind]; simp only; rw [l2, ok_bind]
  show Except.ok _ = _
  congr 1
  rw [e]; exact (map_loop x0 x1 _ _ _ a b c pa pb pc).symm

/-- The function of one number that `transition_function` tabulates. -/
def Tabulates (x0 x1 y0 y1 : ℝ) (F : ℝ → ℝ) : Prop :=
  ∀ x : List ℝ, Sorted x → (∃ z ∈ x, x0 < z ∧ x1 ≤ z) → ∃ i0 i1, transitionFunction x x0 x1 y0 y1 = .ok (x.map F, i0, i1)

/-- There is exactly one. -/
theorem tabulates_iff (x0 x1 y0 y1 : ℝ) (F : ℝ → ℝ) : Tabulates x0 x1 y0 y1 F ↔ F = value x0 x1 y0 y1 := by
  constructor
  · intro h
    funext z
    have hz : z ≤ max z (max (x0 + 1) x1) := le_max_left _ _
    have hs : Sorted [z, max z (max (x0 + 1) x1)] := by simp
    have he : ∃ w ∈ [z, max z (max (x0 + 1) x1)], x0 < w ∧ x1 ≤ w := by
      refine ⟨max z (max (x0 + 1) x1), by simp, ?_, ?_⟩
      · have := (le_max_left (x0 + 1) x1).trans (le_max_right z _); linarith
      · exact (le_max_right (x0 + 1) x1).trans (le_max_right z _)
    obtain ⟨i0, i1, h1⟩ := h _ hs he
    obtain ⟨j0, j1, h2⟩ := transition_value _ hs x0 x1 y0 y1 he
    rw [h1] at h2
    injection h2 with h2
    have := congrArg (fun r : List ℝ × Nat × Nat => r.1[0]?) h2
    simpa using this
  · rintro rfl x hx he
    exact transition_value x hx x0 x1 y0 y1 he

/-- C24: `transition_function_derivative` returns at each number the derivative of the function that
`transition_function` tabulates, except at the one number where the exponent equals the cutoff. -/
theorem transition_derivative_partial (x : List ℝ) (hx : Sorted x) (x0 x1 y0 y1 : ℝ) (h01 : x0 < x1) (hend : ∃ z ∈ x, x0 < z ∧ x1 ≤ z) (F : ℝ → ℝ)
    (hF : Tabulates x0 x1 y0 y1 F) :
    ∃ d, transitionFunctionDerivative x x0 x1 y0 y1 = .ok d ∧ d.length = x.length ∧
      ∀ (k : Nat) (z v : ℝ), x[k]? = some z → d[k]? = some v →
        ¬ (x0 < z ∧ z < x1 ∧ (x1 - x0) / (z - x0) - (x1 - x0) / (x1 - z) = maxexp) → HasDerivAt F v z := by
  rw [tabulates_iff] at hF
  subst hF
  refine ⟨_, derivative_list x hx x0 x1 y0 y1 hend, by simp, ?_⟩
  intro k z v hk hv hne
  rw [List.getElem?_map, hk] at hv
  cases hv
  exact hasDerivAt_value h01 (fun h0 h1 h => hne ⟨h0, h1, by rw [← exponent_eq h0 h1]; exact h⟩)

/-- C24: at that number the tabulated function jumps, by at most `exp(-maxexp)` of the height of the step. -/
theorem transition_jump (x0 x1 y0 y1 : ℝ) (h01 : x0 < x1) (hy : y0 ≠ y1) (F : ℝ → ℝ) (hF : Tabulates x0 x1 y0 y1 F) :
    ∃ z, x0 < z ∧ z < x1 ∧ ¬ ContinuousAt F z := by
  rw [tabulates_iff] at hF
  subst hF
  exact value_jump h01 hy

/-! ### Bumps -/

/-- C24: `bump_function` is `y0` up to `x0`, goes over to `y12` by the same function, is `y12` from `x1` to `x2`, goes
over to `y3` and is `y3` from `x3` on. -/
theorem bump_spec (x : List ℝ) (hx : Sorted x) (x0 x1 x2 x3 y0 y12 y3 : ℝ) (h01 : x0 < x1) (h12 : x1 ≤ x2) (h23 : x2 < x3)
    (hend : ∃ z ∈ x, x3 ≤ z) (F G : ℝ → ℝ) (hF : Tabulates x0 x1 y0 y12 F) (hG : Tabulates x2 x3 y12 y3 G) :
    ∃ y, bumpFunction x x0 x1 x2 x3 y0 y12 y3 = .ok y ∧ y.length = x.length ∧
      ∀ (k : Nat) (z : ℝ), x[k]? = some z →
        (z ≤ x0 → y[k]? = some y0) ∧ (x0 < z → z < x1 → y[k]? = some (F z)) ∧ (x1 ≤ z → z ≤ x2 → y[k]? = some y12) ∧
        (x2 < z → z < x3 → y[k]? = some (G z)) ∧ (x3 ≤ z → y[k]? = some y3) := by
  rw [tabulates_iff] at hF hG
  subst hF; subst hG
  obtain ⟨z3, hz3, h3⟩ := hend
  obtain ⟨a, b, r, e, pa, pb, pr, sr, -, l1, l2⟩ := parts x hx x0 x1 ⟨z3, hz3, by linarith, by linarith⟩
  have hz3r : z3 ∈ r := by
    rw [e] at hz3
    rcases List.mem_append.mp hz3 with h | h
    · have := pa z3 h; linarith
    · rcases List.mem_append.mp h with h | h
      · have := (pb z3 h).2; linarith
      · exact h
  obtain ⟨c, d, s, e', pc, pd, ps, -, -, l3, l4⟩ := parts r sr x2 x3 ⟨z3, hz3r, by linarith, h3⟩
  have hy : bumpFunction x x0 x1 x2 x3 y0 y12 y3 = .ok (x.map fun z => if z ≤ x0 then y0 else if z < x1 then inside x0 x1 y0 y12 z else
      if z ≤ x2 then y12 else if z < x3 then inside x2 x3 y12 y3 z else y3) := by
    have hm := map_loop x0 x1 (fun _ => y0) (inside x0 x1 y0 y12) (fun z => if z ≤ x2 then y12 else if z < x3 then inside x2 x3 y12 y3 z else y3) a b r pa pb pr
    have hm' := map_loop x2 x3 (fun _ => y12) (inside x2 x3 y12 y3) (fun _ => y3) c d s pc pd ps
    rw [← e'] at hm'
    rw [← e, hm'] at hm
    rw [hm]
    unfold bumpFunction
    rw [l1, ok_bind]; simp only; rw [l2, ok_bind]; simp only; rw [l3, ok_bind]; simp only; rw [l4, ok_bind]
    simp only [List.append_assoc]; rfl
  refine ⟨_, hy, by simp, ?_⟩
  intro k z hk
  rw [List.getElem?_map, hk]
  simp only [Option.map_some, value]
  refine ⟨fun h => ?_, fun h h' => ?_, fun h h' => ?_, fun h h' => ?_, fun h => ?_⟩
  · rw [if_pos h]
  · rw [if_neg (not_le.mpr h), if_pos h', if_neg (not_le.mpr h), if_pos h']
  · rw [if_neg (by linarith), if_neg (by linarith), if_pos h']
  · rw [if_neg (by linarith), if_neg (by linarith), if_neg (by linarith), if_pos h']
  · rw [if_neg (by linarith), if_neg (by linarith), if_neg (by linarith), if_neg (by linarith)]

/-- Non-vacuity: five numbers, with one strictly inside. -/
example : ∃ y i0 i1, transitionFunction [-1, 0, 1 / 2, 1, 2] 0 1 3 5 = .ok (y, i0, i1) ∧ y[2]? = some 4 ∧ y[1]? = some 3 ∧ y[3]? = some 5 := by
  have hs : Sorted [-1, 0, 1 / 2, 1, 2] := by norm_num [Sorted]
  obtain ⟨y, i0, i1, h, -, -, -, hk⟩ := transition_spec [-1, 0, 1 / 2, 1, 2] hs 0 1 3 5 ⟨2, by simp, by norm_num, by norm_num⟩
  have hc : ∀ z : ℝ, z = 0 ∨ z = 1 / 2 ∨ z = 1 → ¬ cutoff 0 1 z := by
    rintro z (rfl | rfl | rfl) h
    · exact absurd h.1 (by norm_num)
    · have := h.2.2
      have := maxexp_gt
      norm_num at *
      linarith
    · exact absurd h.2.1 (by norm_num)
  refine ⟨y, i0, i1, h, ?_, ?_, ?_⟩
  · rw [(hk 2 (1 / 2) rfl).2.2.1 (hc _ (by norm_num))]; norm_num [step]
  · rw [(hk 1 0 rfl).2.2.1 (hc _ (by norm_num))]; norm_num [step]
  · rw [(hk 3 1 rfl).2.2.1 (hc _ (by norm_num))]; norm_num [step]

/-! ### `transition_to_constant` -/

/-- What is assumed of `quaternion.indefinite_integral`: as many values as numbers. -/
def SameLength (integral : List ℝ → List ℝ → Py (List ℝ)) : Prop := ∀ g s I, integral g s = .ok I → I.length = s.length

/-- The values that `transition_to_constant` returns, in terms of the three parts of the array. -/
theorem to_constant_parts (integral : List ℝ → List ℝ → Py (List ℝ)) (hI : SameLength integral) (f t : List ℝ) (hf : f.length = t.length)
    (ht : Sorted t) (t1 t2 : ℝ) (hend : ∃ z ∈ t, t1 < z ∧ t2 ≤ z) (y : List ℝ) (h : transitionToConstant integral f t t1 t2 = .ok y) :
    ∃ (i1 i2 : Nat) (I : List ℝ) (c : ℝ), i1 ≤ i2 ∧ i2 < t.length ∧ y.length = t.length ∧
      (∀ (k : Nat) (z : ℝ), t[k]? = some z → (k < i1 ↔ z ≤ t1) ∧ (k < i2 ↔ z ≤ t1 ∨ z < t2)) ∧
      integral (List.zipWith (· * ·) ((f.drop i1).take (i2 - i1)) (((t.map (derivative t1 t2 1 0)).drop i1).take (i2 - i1)))
        ((t.drop i1).take (i2 - i1)) = .ok I ∧
      (∀ k : Nat, k < i1 → y[k]? = f[k]?) ∧
      (∀ k : Nat, i1 ≤ k → k < i2 → ∃ u z w, f[k]? = some u ∧ t[k]? = some z ∧ I[k - i1]? = some w ∧ y[k]? = some (u * value t1 t2 1 0 z - w)) ∧
      (∀ k : Nat, i2 ≤ k → k < t.length → y[k]? = some c) ∧ (0 < i2 → y[i2 - 1]? = some c) := by
  obtain ⟨y', i1, i2, htr, hl, h12, h2t, hk⟩ := transition_spec t ht t1 t2 1 0 hend
  obtain ⟨j0, j1, htr'⟩ := transition_value t ht t1 t2 1 0 hend
  have hy' : y' = t.map (value t1 t2 1 0) := by
    rw [htr] at htr'; injection htr' with e; exact congrArg Prod.fst e
  subst hy'
  unfold transitionToConstant at h
  rw [htr, ok_bind] at h
  simp only at h
  rw [derivative_list t ht t1 t2 1 0 hend, ok_bind] at h
  cases hi : integral (List.zipWith (· * ·) ((f.drop i1).take (i2 - i1)) (((t.map (derivative t1 t2 1 0)).drop i1).take (i2 - i1)))
        ((t.drop i1).take (i2 - i1)) with
  | error e => rw [hi] at h; cases h
  | ok I =>
    rw [hi, ok_bind] at h
    have hIl : I.length = i2 - i1 := by rw [hI _ _ _ hi]; simp; omega
    have h2t' : i2 < t.length := by
      by_contra hn
      obtain ⟨z, hz, hz1, hz2⟩ := hend
      obtain ⟨k, hk', hkz⟩ := List.mem_iff_getElem.mp hz
      have := (hk k z (by rw [List.getElem?_eq_getElem hk', hkz])).2.1.mp (by omega)
      rcases this with h | h <;> linarith
    generalize hg : (List.zipWith (· * ·) f (t.map (value t1 t2 1 0))).take i1 ++
      List.zipWith (· - ·) (((List.zipWith (· * ·) f (t.map (value t1 t2 1 0))).drop i1).take (i2 - i1)) I ++
      (List.zipWith (· * ·) f (t.map (value t1 t2 1 0))).drop i2 = g at h
    have hgl : g.length = t.length := by
      rw [← hg]; simp [hIl, hf]; omega
    have hlo : ∀ k : Nat, k < i1 → g[k]? = f[k]? := by
      intro k hki
      have hkt : k < t.length := by omega
      rw [← hg, List.getElem?_append_left (by simp [hIl, hf]; omega), List.getElem?_append_left (by simp [hf]; omega),
        List.getElem?_take_of_lt hki, List.getElem?_eq_getElem (by simp [hf]; omega), List.getElem?_eq_getElem (by omega)]
      have hz : t[k] ≤ t1 := (hk k t[k] (List.getElem?_eq_getElem hkt)).1.mp hki
      simp [value, hz]
    have hmid : ∀ k : Nat, i1 ≤ k → k < i2 → ∃ u z w, f[k]? = some u ∧ t[k]? = some z ∧ I[k - i1]? = some w ∧
        g[k]? = some (u * value t1 t2 1 0 z - w) := by
      intro k h1 h2
      have hkt : k < t.length := by omega
      have hkf : k < f.length := by omega
      have hkI : k - i1 < I.length := by omega
      refine ⟨f[k], t[k], I[k - i1], List.getElem?_eq_getElem hkf, List.getElem?_eq_getElem hkt, List.getElem?_eq_getElem hkI, ?_⟩
      have hl1 : ((List.zipWith (· * ·) f (t.map (value t1 t2 1 0))).take i1).length = i1 := by simp [hf]; omega
      rw [← hg, List.append_assoc, List.getElem?_append_right (by rw [hl1]; exact h1), hl1,
        List.getElem?_append_left (by simp [hIl, hf]; omega), List.getElem?_zipWith, List.getElem?_take_of_lt (by omega),
        List.getElem?_drop, show i1 + (k - i1) = k by omega, List.getElem?_zipWith, List.getElem?_map, List.getElem?_eq_getElem hkf,
        List.getElem?_eq_getElem hkt, List.getElem?_eq_getElem hkI]
      rfl
    cases hc : pyGet g ((i2 : Int) - 1) with
    | error e => rw [hc] at h; cases h
    | ok c =>
      rw [hc] at h
      have h : g.take i2 ++ (g.drop i2).map (fun _ => c) = y := by injection h
      subst h
      have htk : ∀ k : Nat, k < i2 → (g.take i2 ++ (g.drop i2).map (fun _ => c))[k]? = g[k]? := by
        intro k hk2
        rw [List.getElem?_append_left (by simp; omega), List.getElem?_take_of_lt hk2]
      refine ⟨i1, i2, I, c, h12, h2t', by simp; omega, fun k z hz => ⟨(hk k z hz).1, (hk k z hz).2.1⟩, hi, ?_, ?_, ?_, ?_⟩
      · intro k hki; rw [htk k (by omega), hlo k hki]
      · intro k h1 h2
        obtain ⟨u, z, w, a, b, d, e⟩ := hmid k h1 h2
        exact ⟨u, z, w, a, b, d, by rw [htk k h2, e]⟩
      · intro k h1 h2
        rw [List.getElem?_append_right (by simp; omega), List.getElem?_map, List.getElem?_eq_getElem (by simp; omega)]; rfl
      · intro hpos
        rw [htk _ (by omega)]
        unfold pyGet at hc
        simp only at hc
        rw [if_neg (show ¬ (i2 : Int) - 1 < 0 by omega), if_neg (by omega), show ((i2 : Int) - 1).toNat = i2 - 1 by omega] at hc
        cases hgi : g[i2 - 1]? with
        | none => rw [hgi] at hc; cases hc
        | some v => rw [hgi] at hc; cases hc; rfl

/-- C25: `transition_to_constant` returns exactly `f` where `t ≤ t1` and one constant where `t ≥ t2`; the constant is
the value at the last number before `t2`, if there is one. -/
theorem to_constant_reached (integral : List ℝ → List ℝ → Py (List ℝ)) (hI : SameLength integral) (f t : List ℝ) (hf : f.length = t.length)
    (ht : Sorted t) (t1 t2 : ℝ) (hend : ∃ z ∈ t, t1 < z ∧ t2 ≤ z) (y : List ℝ) (h : transitionToConstant integral f t t1 t2 = .ok y) :
    y.length = t.length ∧ (∀ (k : Nat) (z : ℝ), t[k]? = some z → z ≤ t1 → y[k]? = f[k]?) ∧
      ∃ c, (∀ (k : Nat) (z : ℝ), t[k]? = some z → t1 < z → t2 ≤ z → y[k]? = some c) ∧
        ∀ (k : Nat) (z z' : ℝ), t[k]? = some z → t[k + 1]? = some z' → z < t2 → t1 < z' → t2 ≤ z' → y[k]? = some c := by
  obtain ⟨i1, i2, I, c, h12, h2t, hl, hk, -, hlo, -, hhi, hc⟩ := to_constant_parts integral hI f t hf ht t1 t2 hend y h
  refine ⟨hl, fun k z hz hz1 => hlo k ((hk k z hz).1.mpr hz1), c, fun k z hz h1 h2 => ?_, fun k z z' hz hz' h1 h2 h3 => ?_⟩
  · refine hhi k ?_ ?_
    · by_contra hn
      rcases (hk k z hz).2.mp (by omega) with h | h <;> linarith
    · by_contra hn; rw [List.getElem?_eq_none (by omega)] at hz; cases hz
  · have a := (hk k z hz).2.mpr (Or.inr h1)
    have b : ¬ k + 1 < i2 := by
      intro hn
      rcases (hk (k + 1) z' hz').2.mp hn with h | h <;> linarith
    have : k = i2 - 1 := by omega
    rw [this]
    exact hc (by omega)

/-- C25: it never returns when the times do not reach `t2`: the compiled loop reads past the end of the array. -/
theorem to_constant_not_reached (integral : List ℝ → List ℝ → Py (List ℝ)) (f t : List ℝ) (t1 t2 : ℝ) (h : (∀ z ∈ t, z < t2) ∨ (∀ z ∈ t, z ≤ t1)) :
    transitionToConstant integral f t t1 t2 = .error .outOfBounds := by
  unfold transitionToConstant
  rw [transition_not_reached t t1 t2 1 0 h]; rfl

/-- C25: whatever `transition_to_constant` returns is exactly `f` where `t ≤ t1` and one constant where `t ≥ t2`. -/
theorem to_constant_spec_partial (integral : List ℝ → List ℝ → Py (List ℝ)) (hI : SameLength integral) (f t : List ℝ) (hf : f.length = t.length)
    (ht : Sorted t) (t1 t2 : ℝ) (h12 : t1 < t2) (y : List ℝ) (h : transitionToConstant integral f t t1 t2 = .ok y) :
    y.length = t.length ∧ (∀ (k : Nat) (z : ℝ), t[k]? = some z → z ≤ t1 → y[k]? = f[k]?) ∧
      ∃ c, (∀ (k : Nat) (z : ℝ), t[k]? = some z → t2 ≤ z → y[k]? = some c) ∧
        ∀ (k : Nat) (z z' : ℝ), t[k]? = some z → t[k + 1]? = some z' → z < t2 → t2 ≤ z' → y[k]? = some c := by
  have hend : ∃ z ∈ t, t1 < z ∧ t2 ≤ z := by
    by_contra hn
    push Not at hn
    rw [to_constant_not_reached integral f t t1 t2 (Or.inl fun z hz => ?_)] at h
    · cases h
    · by_contra hz2
      have := hn z hz (by linarith)
      linarith
  obtain ⟨a, b, c, h1, h2⟩ := to_constant_reached integral hI f t hf ht t1 t2 hend y h
  exact ⟨a, b, c, fun k z hz hz2 => h1 k z hz (by linarith) hz2, fun k z z' hz hz' q1 q2 => h2 k z z' hz hz' q1 (by linarith) q2⟩

/-- It succeeds whenever the integral does. -/
theorem to_constant_ok (integral : List ℝ → List ℝ → Py (List ℝ)) (hI : SameLength integral) (hok : ∀ g s, g.length = s.length → 2 ≤ s.length → ∃ I, integral g s = .ok I)
    (f t : List ℝ) (hf : f.length = t.length) (ht : Sorted t) (t1 t2 : ℝ) (hend : ∃ z ∈ t, t1 < z ∧ t2 ≤ z)
    (htwo : ∃ (k : Nat) (z z' : ℝ), t[k]? = some z ∧ t[k + 1]? = some z' ∧ t1 < z ∧ z' < t2) :
    ∃ y, transitionToConstant integral f t t1 t2 = .ok y := by
  obtain ⟨y', i1, i2, htr, hl, h12, h2t, hk⟩ := transition_spec t ht t1 t2 1 0 hend
  obtain ⟨k, z, z', hz, hz', hz1, hz2⟩ := htwo
  have b1 : i1 ≤ k := by
    by_contra hn
    have := (hk k z hz).1.mp (by omega); linarith
  have b2 : k + 1 < i2 := (hk (k + 1) z' hz').2.1.mpr (Or.inr hz2)
  unfold transitionToConstant
  rw [htr, ok_bind]
  simp only
  rw [derivative_list t ht t1 t2 1 0 hend, ok_bind]
  obtain ⟨I, hi⟩ := hok (List.zipWith (· * ·) ((f.drop i1).take (i2 - i1)) (((t.map (derivative t1 t2 1 0)).drop i1).take (i2 - i1)))
        ((t.drop i1).take (i2 - i1)) (by simp [hf]) (by simp; omega)
  have hIl : I.length = i2 - i1 := by rw [hI _ _ _ hi]; simp; omega
  rw [hi, ok_bind]
  generalize hg : (List.zipWith (· * ·) f y').take i1 ++ List.zipWith (· - ·) (((List.zipWith (· * ·) f y').drop i1).take (i2 - i1)) I ++
      (List.zipWith (· * ·) f y').drop i2 = g
  have hgl : g.length = t.length := by
    rw [← hg]; simp [hIl, hf, hl]; omega
  have : pyGet g ((i2 : Int) - 1) = .ok (g[i2 - 1]'(by omega)) := by
    have := pyGet_nat (l := g) (i := i2 - 1) (List.getElem?_eq_getElem (by omega))
    rw [← this]; congr 1; omega
  rw [this, ok_bind]
  exact ⟨_, rfl⟩

/-- Exact integration of the derivative of the transition. -/
def ExactFor (integral : List ℝ → List ℝ → Py (List ℝ)) (t1 t2 : ℝ) : Prop :=
  ∀ (b : ℝ) (s : List ℝ) (z0 : ℝ), s[0]? = some z0 → (∀ z ∈ s, t1 < z ∧ z < t2) →
    integral (s.map fun z => b * derivative t1 t2 1 0 z) s = .ok (s.map fun z => b * (value t1 t2 1 0 z - value t1 t2 1 0 z0))

/-- C25, a constant function.  The integral begins at the first number inside the interval and not at `t1`, so even with
exact integration a constant `b` becomes `b` times the transition function at that number. -/
theorem to_constant_of_constant (integral : List ℝ → List ℝ → Py (List ℝ)) (hI : SameLength integral) (b t1 t2 : ℝ) (hex : ExactFor integral t1 t2)
    (t : List ℝ) (ht : Sorted t) (hend : ∃ z ∈ t, t1 < z ∧ t2 ≤ z) (y : List ℝ)
    (h : transitionToConstant integral (t.map fun _ => b) t t1 t2 = .ok y) (j : Nat) (z0 : ℝ) (hj : t[j]? = some z0) (hz0 : t1 < z0)
    (hz02 : z0 < t2) (hfirst : ∀ (i : Nat) (z : ℝ), i < j → t[i]? = some z → z ≤ t1) (k : Nat) (hjk : j ≤ k) (hkt : k < t.length) :
    y[k]? = some (b * value t1 t2 1 0 z0) := by
  obtain ⟨i1, i2, I, c, h12, h2t, hl, hk, hint, hlo, hmid, hhi, hc⟩ :=
    to_constant_parts integral hI (t.map fun _ => b) t (by simp) ht t1 t2 hend y h
  have hj1 : i1 = j := by
    have a : ¬ j < i1 := fun hn => absurd ((hk j z0 hj).1.mp hn) (not_le.mpr hz0)
    by_contra hne
    have hlt : i1 < j := by omega
    have hi : t[i1]? = some t[i1] := List.getElem?_eq_getElem (by omega)
    have := (hk i1 _ hi).1.mpr (hfirst i1 _ hlt hi)
    omega
  subst hj1
  have hj2 : i1 < i2 := (hk i1 z0 hj).2.mpr (Or.inr hz02)
  have harg : List.zipWith (· * ·) (((t.map fun _ => b).drop i1).take (i2 - i1)) (((t.map (derivative t1 t2 1 0)).drop i1).take (i2 - i1)) =
      ((t.drop i1).take (i2 - i1)).map fun z => b * derivative t1 t2 1 0 z := by
    rw [← List.map_drop, ← List.map_take, ← List.map_drop, ← List.map_take, List.zipWith_map]
    generalize (t.drop i1).take (i2 - i1) = s
    induction s with
    | nil => rfl
    | cons x xs ih => simp
  have hfst : ((t.drop i1).take (i2 - i1))[0]? = some z0 := by
    rw [List.getElem?_take_of_lt (by omega), List.getElem?_drop]; simpa using hj
  have hall : ∀ z ∈ (t.drop i1).take (i2 - i1), t1 < z ∧ z < t2 := by
    intro z hz
    obtain ⟨n, hn⟩ := List.mem_iff_getElem?.mp hz
    have hlen : n < i2 - i1 := by
      by_contra hge
      rw [List.getElem?_eq_none (by simp; omega)] at hn; cases hn
    rw [List.getElem?_take_of_lt hlen, List.getElem?_drop] at hn
    have q1 : ¬ z ≤ t1 := fun h => by have := (hk _ z hn).1.mpr h; omega
    have q2 := (hk _ z hn).2.mp (by omega)
    exact ⟨not_le.mp q1, q2.resolve_left q1⟩
  rw [harg, hex b _ z0 hfst hall] at hint
  have hIe : ((t.drop i1).take (i2 - i1)).map (fun z => b * (value t1 t2 1 0 z - value t1 t2 1 0 z0)) = I := by injection hint
  have hm : ∀ k : Nat, i1 ≤ k → k < i2 → y[k]? = some (b * value t1 t2 1 0 z0) := by
    intro k h1 h2
    obtain ⟨u, z, w, e1, e2, e3, e4⟩ := hmid k h1 h2
    rw [List.getElem?_map, e2] at e1
    cases e1
    rw [← hIe, List.getElem?_map, List.getElem?_take_of_lt (by omega), List.getElem?_drop, show i1 + (k - i1) = k by omega, e2] at e3
    cases e3
    rw [e4]; congr 1; ring
  by_cases h2 : k < i2
  · exact hm k hjk h2
  · rw [hhi k (by omega) hkt, ← hc (by omega), hm (i2 - 1) (by omega) (by omega)]

/-- C25: so a constant is preserved when the first number inside lies where the transition is cut off ... -/
theorem to_constant_of_constant_partial (integral : List ℝ → List ℝ → Py (List ℝ)) (hI : SameLength integral) (b t1 t2 : ℝ) (hex : ExactFor integral t1 t2)
    (t : List ℝ) (ht : Sorted t) (hend : ∃ z ∈ t, t1 < z ∧ t2 ≤ z) (y : List ℝ)
    (h : transitionToConstant integral (t.map fun _ => b) t t1 t2 = .ok y) (j : Nat) (z0 : ℝ) (hj : t[j]? = some z0) (hz0 : cutoff t1 t2 z0)
    (hfirst : ∀ (i : Nat) (z : ℝ), i < j → t[i]? = some z → z ≤ t1) : y = t.map fun _ => b := by
  have hl : y.length = t.length := (to_constant_reached integral hI _ t (by simp) ht t1 t2 hend y h).1
  have hv : value t1 t2 1 0 z0 = 1 := by
    unfold value inside
    rw [if_neg (not_le.mpr hz0.1), if_pos hz0.2.1, if_pos ((cutoff_iff hz0.1 hz0.2.1).mp hz0)]
  apply List.ext_getElem?
  intro k
  by_cases hkt : k < t.length
  · by_cases hjk : j ≤ k
    · rw [to_constant_of_constant integral hI b t1 t2 hex t ht hend y h j z0 hj hz0.1 hz0.2.1 hfirst k hjk hkt, hv, List.getElem?_map,
        List.getElem?_eq_getElem hkt]
      simp
    · exact (to_constant_reached integral hI _ t (by simp) ht t1 t2 hend y h).2.1 k t[k] (List.getElem?_eq_getElem hkt)
        (hfirst k _ (by omega) (List.getElem?_eq_getElem hkt))
  · rw [List.getElem?_eq_none (by omega), List.getElem?_eq_none (by simp; omega)]

/-- An exact integral exists. -/
noncomputable def exactIntegral (t1 t2 : ℝ) (g s : List ℝ) : Py (List ℝ) :=
  @dite _ (∃ p : ℝ × ℝ, s[0]? = some p.2 ∧ g = s.map fun z => p.1 * derivative t1 t2 1 0 z) (Classical.propDecidable _)
    (fun h => .ok (s.map fun z => h.choose.1 * (value t1 t2 1 0 z - value t1 t2 1 0 h.choose.2))) fun _ => .ok (s.map fun _ => 0)

theorem exactIntegral_length (t1 t2 : ℝ) : SameLength (exactIntegral t1 t2) := by
  intro g s I h
  unfold exactIntegral at h
  split at h
  · injection h with h; rw [← h]; simp
  · injection h with h; rw [← h]; simp

/-- The derivative vanishes inside only where the transition is cut off. -/
theorem derivative_zero {t1 t2 z : ℝ} (h1 : t1 < z) (h2 : z < t2) (h : derivative t1 t2 1 0 z = 0) : value t1 t2 1 0 z = 1 := by
  unfold derivative at h
  rw [if_neg (not_le.mpr h1), if_pos h2] at h
  unfold value inside
  rw [if_neg (not_le.mpr h1), if_pos h2]
  by_cases hc : exponent t1 t2 z ≥ maxexp
  · rw [if_pos hc]
  · exfalso
    unfold insideDerivative at h
    simp only at h
    rw [if_neg hc] at h
    have ht : 0 < (z - t1) / (t2 - t1) := div_pos (by linarith) (by linarith)
    have he := Real.exp_pos (1 / ((z - t1) / (t2 - t1)) - 1 / (1 - (z - t1) / (t2 - t1)))
    generalize Real.exp (1 / ((z - t1) / (t2 - t1)) - 1 / (1 - (z - t1) / (t2 - t1))) = e at h he
    have ha : -1 / ((z - t1) / (t2 - t1)) ^ 2 - 1 / (1 - (z - t1) / (t2 - t1)) ^ 2 < 0 := by
      have q1 : -1 / ((z - t1) / (t2 - t1)) ^ 2 < 0 := div_neg_of_neg_of_pos (by norm_num) (by positivity)
      have q2 : 0 ≤ 1 / (1 - (z - t1) / (t2 - t1)) ^ 2 := by positivity
      linarith
    have hd : 0 < 1 / (t2 - t1) := one_div_pos.mpr (by linarith)
    have hn : -(0 - 1) * e * (-1 / ((z - t1) / (t2 - t1)) ^ 2 - 1 / (1 - (z - t1) / (t2 - t1)) ^ 2) * (1 / (t2 - t1)) < 0 :=
      mul_neg_of_neg_of_pos (mul_neg_of_pos_of_neg (by linarith) ha) hd
    have : -(0 - 1) * e * (-1 / ((z - t1) / (t2 - t1)) ^ 2 - 1 / (1 - (z - t1) / (t2 - t1)) ^ 2) * (1 / (t2 - t1)) / (1 + e) ^ 2 < 0 :=
      div_neg_of_neg_of_pos hn (by positivity)
    linarith

theorem exactIntegral_exact (t1 t2 : ℝ) : ExactFor (exactIntegral t1 t2) t1 t2 := by
  intro b s z0 h0 hs
  unfold exactIntegral
  have h : ∃ p : ℝ × ℝ, s[0]? = some p.2 ∧ (s.map fun z => b * derivative t1 t2 1 0 z) = s.map fun z => p.1 * derivative t1 t2 1 0 z :=
    ⟨(b, z0), h0, rfl⟩
  rw [dif_pos h]
  congr 1
  have hc := h.choose_spec
  generalize h.choose = p at hc
  obtain ⟨p1, p2⟩ := p
  simp only at hc ⊢
  have hz : z0 = p2 := by rw [h0] at hc; exact Option.some.inj hc.1
  subst hz
  have hz0 : z0 ∈ s := List.mem_of_getElem? h0
  have heq := List.map_inj_left.mp hc.2
  apply List.map_congr_left
  intro z hzs
  by_cases hb : p1 = b
  · rw [hb]
  · have hzero : ∀ w ∈ s, value t1 t2 1 0 w = 1 := by
      intro w hw
      have := heq w hw
      refine derivative_zero (hs w hw).1 (hs w hw).2 ?_
      have h' : (p1 - b) * derivative t1 t2 1 0 w = 0 := by linarith
      rcases mul_eq_zero.mp h' with h' | h'
      · exact absurd (by linarith) hb
      · exact h'
    rw [hzero z hzs, hzero z0 hz0]; ring

/-- ... but not in general: even with exact integration, the constant 1 becomes a smaller one. -/
theorem to_constant_loses_constant : ∃ (integral : List ℝ → List ℝ → Py (List ℝ)) (t y : List ℝ) (v : ℝ), SameLength integral ∧
    ExactFor integral 0 1 ∧ Sorted t ∧ transitionToConstant integral (t.map fun _ => 1) t 0 1 = .ok y ∧ y[3]? = some v ∧ v < 1 := by
  have hs : Sorted [0, 1 / 4, 1 / 2, 1] := by norm_num [Sorted]
  have hend : ∃ z ∈ [0, 1 / 4, 1 / 2, (1 : ℝ)], (0 : ℝ) < z ∧ 1 ≤ z := ⟨1, by simp, by norm_num, le_rfl⟩
  obtain ⟨y, hy⟩ := to_constant_ok (exactIntegral 0 1) (exactIntegral_length 0 1) (fun g s _ _ => by
    unfold exactIntegral; split <;> exact ⟨_, rfl⟩) ([0, 1 / 4, 1 / 2, (1 : ℝ)].map fun _ => 1) [0, 1 / 4, 1 / 2, 1] rfl hs 0 1 hend
    ⟨1, 1 / 4, 1 / 2, rfl, rfl, by norm_num, by norm_num⟩
  refine ⟨exactIntegral 0 1, [0, 1 / 4, 1 / 2, 1], y, _, exactIntegral_length 0 1, exactIntegral_exact 0 1, hs, hy,
    to_constant_of_constant (exactIntegral 0 1) (exactIntegral_length 0 1) 1 0 1 (exactIntegral_exact 0 1) _ hs hend y hy 1 (1 / 4) rfl
      (by norm_num) (by norm_num) (fun i z hi hz => ?_) 3 (by norm_num) (by norm_num), ?_⟩
  · have : i = 0 := by omega
    subst this
    simp at hz
    exact hz.ge
  · unfold value inside
    rw [if_neg (by norm_num), if_pos (by norm_num), if_neg]
    · have := frac_pos (exponent 0 1 (1 / 4))
      have e : (0 - 1) / (1 + Real.exp (exponent 0 1 (1 / 4))) = -(1 / (1 + Real.exp (exponent 0 1 (1 / 4)))) := by ring
      rw [e]; linarith
    · rw [exponent_eq (by norm_num) (by norm_num)]
      have := maxexp_gt
      norm_num
      linarith

end Verif.Props.Transition
