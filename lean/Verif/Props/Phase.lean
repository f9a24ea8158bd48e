import Verif.Spec.Phase
import Mathlib.Data.List.GetD
import Mathlib.Analysis.Real.Pi.Bounds
import Mathlib.Tactic.IntervalCases
import Mathlib.Analysis.SpecialFunctions.Complex.Log

/-!
# C102: amplitudes and phases of waveforms
-/

namespace Verif.Props.Phase
open Verif Verif.Phase Verif.Slicing Verif.Spec.Phase

variable {Q : Type} {w : WM ℝ Q ℂ}

/-! ## One step -/

theorem wrap_turns (dd : ℝ) : ∃ n : ℤ, wrap dd = dd + n * (2 * Real.pi) := by
  unfold wrap pmod
  simp only
  split
  · rename_i h
    refine ⟨1 - ⌊(dd + Real.pi) / (2 * Real.pi)⌋, ?_⟩
    push_cast
    linarith [h.1]
  · refine ⟨-⌊(dd + Real.pi) / (2 * Real.pi)⌋, ?_⟩
    push_cast
    ring

theorem wrap_small (dd : ℝ) : |wrap dd| ≤ Real.pi := by
  have hp := Real.pi_pos
  unfold wrap
  simp only
  split
  · rw [abs_of_pos hp]
  · unfold pmod
    have h1 := Int.floor_le ((dd + Real.pi) / (2 * Real.pi))
    have h2 := Int.lt_floor_add_one ((dd + Real.pi) / (2 * Real.pi))
    rw [le_div_iff₀ (by positivity)] at h1
    rw [div_lt_iff₀ (by positivity)] at h2
    rw [abs_le]
    constructor <;> nlinarith

theorem correction_turns (dd : ℝ) : ∃ n : ℤ, correction dd = n * (2 * Real.pi) := by
  unfold correction
  split
  · exact ⟨0, by simp⟩
  · obtain ⟨n, hn⟩ := wrap_turns dd
    exact ⟨n, by rw [hn]; ring⟩

theorem step_small (dd : ℝ) : |dd + correction dd| ≤ Real.pi := by
  unfold correction
  split
  · rename_i h
    rw [add_zero]
    exact h.le
  · rw [add_sub_cancel]
    exact wrap_small dd

/-- The corrected step is the only one that is smaller than half a turn. -/
theorem step_eq (dd x : ℝ) (n : ℤ) (h : x = dd + n * (2 * Real.pi)) (hx : |x| < Real.pi) : dd + correction dd = x := by
  obtain ⟨m, hm⟩ := correction_turns dd
  have hs := step_small dd
  have hp := Real.pi_pos
  rw [abs_le] at hs
  rw [abs_lt] at hx
  have e : dd + correction dd - x = ((m - n : ℤ) : ℝ) * (2 * Real.pi) := by
    rw [hm, h]
    push_cast
    ring
  have h1 : ((m - n : ℤ) : ℝ) < 1 := by
    by_contra hc
    push Not at hc
    nlinarith
  have h2 : -1 < ((m - n : ℤ) : ℝ) := by
    by_contra hc
    push Not at hc
    nlinarith
  have h3 : m - n = 0 := by
    have a1 : m - n < 1 := by exact_mod_cast h1
    have a2 : -1 < m - n := by exact_mod_cast h2
    omega
  rw [h3] at e
  simp at e
  linarith

/-! ## One column -/

theorem unwrap_length (l : List ℝ) : (unwrap l).length = l.length := by
  have h : ∀ (l : List ℝ) a p, (unwrapFrom a p l).length = l.length := by
    intro l
    induction l with
    | nil => intro a p; rfl
    | cons x l ih => intro a p; simp [unwrapFrom, ih]
  cases l with
  | nil => rfl
  | cons x l => simp [unwrap, h]

theorem unwrap_first (l : List ℝ) : (unwrap l).getD 0 0 = l.getD 0 0 := by
  cases l <;> rfl

theorem from_step (l : List ℝ) (a p : ℝ) (k : Nat) (hk : k < l.length) :
    ((p + a) :: unwrapFrom a p l).getD (k + 1) 0 - ((p + a) :: unwrapFrom a p l).getD k 0 = ((p :: l).getD (k + 1) 0 - (p :: l).getD k 0) + correction ((p :: l).getD (k + 1) 0 - (p :: l).getD k 0) := by
  induction l generalizing a p k with
  | nil => simp at hk
  | cons x l ih =>
    cases k with
    | zero =>
      simp [unwrapFrom]
      ring
    | succ k =>
      have := ih (a + correction (x - p)) x k (by simpa using hk)
      simpa [unwrapFrom] using this

theorem unwrap_step (l : List ℝ) (k : Nat) (hk : k + 1 < l.length) :
    (unwrap l).getD (k + 1) 0 - (unwrap l).getD k 0 = (l.getD (k + 1) 0 - l.getD k 0) + correction (l.getD (k + 1) 0 - l.getD k 0) := by
  cases l with
  | nil => simp at hk
  | cons x l =>
    have := from_step l 0 x k (by simpa using hk)
    rw [add_zero] at this
    exact this

theorem unwrap_turns (l : List ℝ) (k : Nat) (hk : k < l.length) : ∃ n : ℤ, (unwrap l).getD k 0 = l.getD k 0 + n * (2 * Real.pi) := by
  induction k with
  | zero => exact ⟨0, by rw [unwrap_first]; simp⟩
  | succ k ih =>
    obtain ⟨n, hn⟩ := ih (by omega)
    obtain ⟨m, hm⟩ := correction_turns (l.getD (k + 1) 0 - l.getD k 0)
    have := unwrap_step l k hk
    refine ⟨n + m, ?_⟩
    push_cast
    linarith

/-! ## The waveform -/

theorem item_map {α β : Type} [Zero α] [Zero β] (g : α → β) (hg : g 0 = 0) (d : List (List α)) (k j : Nat) : item (d.map (·.map g)) k j = g (item d k j) := by
  unfold item
  rw [List.getD_eq_getElem?_getD (l := d.map _), List.getElem?_map, List.getD_eq_getElem?_getD (l := d)]
  cases d[k]? with
  | none => simp [hg]
  | some r =>
    simp only [Option.map_some, Option.getD_some]
    rw [List.getD_eq_getElem?_getD, List.getElem?_map, List.getD_eq_getElem?_getD]
    cases r[j]? <;> simp [hg]

theorem column_item (d : List (List ℝ)) (k j : Nat) : (d.map (·.getD j 0)).getD k 0 = item d k j := by
  unfold item
  rw [List.getD_eq_getElem?_getD, List.getElem?_map, List.getD_eq_getElem?_getD (l := d)]
  cases d[k]? <;> simp

theorem unwrapped_item (k j : Nat) (hk : k < w.data.length) (hj : j < w.nCols) : item (argUnwrapped w) k j = (unwrap ((arg w).map (·.getD j 0))).getD k 0 := by
  unfold item argUnwrapped
  have h : k < ((List.range w.data.length).map fun k => (List.range w.nCols).map fun j => (unwrap ((arg w).map (·.getD j 0))).getD k 0).length := by simpa using hk
  rw [List.getD_eq_getElem _ [] h, List.getElem_map, List.getElem_range, List.getD_eq_getElem _ _ (by simpa using hj), List.getElem_map, List.getElem_range]

theorem arg_item (w : WM ℝ Q ℂ) (k j : Nat) : ((arg w).map (·.getD j 0)).getD k 0 = (item w.data k j).arg := by
  rw [column_item]
  exact item_map _ Complex.arg_zero _ _ _

theorem arg_length (w : WM ℝ Q ℂ) (j : Nat) : ((arg w).map (·.getD j 0)).length = w.data.length := by simp [arg]

theorem turns (n : ℤ) (x : ℝ) : Complex.exp ((x + n * (2 * Real.pi) : ℝ) * Complex.I) = Complex.exp (x * Complex.I) := by
  rw [show ((x + n * (2 * Real.pi) : ℝ) : ℂ) * Complex.I = x * Complex.I + n * (2 * Real.pi * Complex.I) by push_cast; ring]
  exact Complex.exp_periodic.int_mul n _

/-- **C102**: `abs`, `arg` and `arg_unwrapped` have a number for each item, and each item of the data is the product of its `abs` and of the phase factor of its `arg`, and also of its `arg_unwrapped`. `arg` is more than `-π` and at most `π`. -/
theorem polar (hw : Proper w) : Shape w (Phase.abs w) ∧ Shape w (arg w) ∧ Shape w (argUnwrapped w) ∧ ∀ k j, k < w.t.length → j < w.nCols →
    0 ≤ item (Phase.abs w) k j ∧ -Real.pi < item (arg w) k j ∧ item (arg w) k j ≤ Real.pi ∧
    item w.data k j = item (Phase.abs w) k j * Complex.exp (item (arg w) k j * Complex.I) ∧
    item w.data k j = item (Phase.abs w) k j * Complex.exp (item (argUnwrapped w) k j * Complex.I) := by
  refine ⟨⟨by simp [Phase.abs, hw.rows], ?_⟩, ⟨by simp [arg, hw.rows], ?_⟩, ⟨by simp [argUnwrapped, hw.rows], ?_⟩, fun k j hk hj => ?_⟩
  · intro r hr
    obtain ⟨r', h', rfl⟩ := List.mem_map.1 hr
    rw [List.length_map, hw.cols _ h']
  · intro r hr
    obtain ⟨r', h', rfl⟩ := List.mem_map.1 hr
    rw [List.length_map, hw.cols _ h']
  · intro r hr
    obtain ⟨k, -, rfl⟩ := List.mem_map.1 hr
    simp
  · have e1 : item (Phase.abs w) k j = ‖item w.data k j‖ := item_map _ norm_zero _ _ _
    have e2 : item (arg w) k j = (item w.data k j).arg := item_map _ Complex.arg_zero _ _ _
    have hk' : k < w.data.length := by rw [hw.rows]; exact hk
    have e3 : ∃ n : ℤ, item (argUnwrapped w) k j = (item w.data k j).arg + n * (2 * Real.pi) := by
      rw [unwrapped_item k j hk' hj]
      obtain ⟨n, hn⟩ := unwrap_turns ((arg w).map (·.getD j 0)) k (by rw [arg_length]; exact hk')
      exact ⟨n, by rw [hn, arg_item]⟩
    obtain ⟨n, e3⟩ := e3
    rw [e1, e2, e3, turns]
    exact ⟨norm_nonneg _, Complex.neg_pi_lt_arg _, Complex.arg_le_pi _, (Complex.norm_mul_exp_arg_mul_I _).symm, (Complex.norm_mul_exp_arg_mul_I _).symm⟩

/-- **C102**: `arg_unwrapped` begins with `arg` and moves by at most half a turn from one time to the next. -/
theorem steps (hw : Proper w) (j : Nat) (hj : j < w.nCols) : (0 < w.t.length → item (argUnwrapped w) 0 j = item (arg w) 0 j) ∧
    ∀ k, k + 1 < w.t.length → |item (argUnwrapped w) (k + 1) j - item (argUnwrapped w) k j| ≤ Real.pi := by
  rw [← hw.rows]
  constructor
  · intro h
    rw [unwrapped_item 0 j h hj, unwrap_first, column_item]
  · intro k hk
    rw [unwrapped_item k j (by omega) hj, unwrapped_item (k + 1) j hk hj, unwrap_step _ k (by rw [arg_length]; exact hk)]
    exact step_small _

theorem arg_of (A P : ℝ) (hA : 0 < A) : ∃ n : ℤ, P = ((A : ℂ) * Complex.exp (P * Complex.I)).arg + n * (2 * Real.pi) := by
  obtain ⟨z, hz⟩ : ∃ z, z = (A : ℂ) * Complex.exp (P * Complex.I) := ⟨_, rfl⟩
  rw [← hz]
  have hn : ‖z‖ = A := by
    rw [hz, norm_mul, Complex.norm_exp_ofReal_mul_I, mul_one, Complex.norm_real, Real.norm_of_nonneg hA.le]
  have h := Complex.norm_mul_exp_arg_mul_I z
  rw [hn] at h
  have h2 : Complex.exp (z.arg * Complex.I) = Complex.exp (P * Complex.I) := by
    have hA' : (A : ℂ) ≠ 0 := by exact_mod_cast hA.ne'
    exact mul_left_cancel₀ hA' (h.trans hz)
  obtain ⟨n, hn⟩ := Complex.exp_eq_exp_iff_exists_int.1 h2.symm
  refine ⟨n, ?_⟩
  have := congrArg Complex.im hn
  simpa using this

/-- **C102**: if the amplitude of a mode does not vanish and its phase moves by less than half a turn from one time to the next, `arg_unwrapped` is the phase, up to one number of full turns for all times. -/
theorem follows (hw : Proper w) (j : Nat) (hj : j < w.nCols) {A P : Nat → ℝ} (h : Follows w j A P) :
    ∃ n : ℤ, ∀ k, k < w.t.length → item (argUnwrapped w) k j = P k + n * (2 * Real.pi) := by
  by_cases h0 : 0 < w.t.length
  · have ha : ∀ k, k < w.t.length → ∃ n : ℤ, P k = (item w.data k j).arg + n * (2 * Real.pi) := by
      intro k hk
      rw [h.value k hk]
      exact arg_of _ _ (h.pos k hk)
    obtain ⟨n, hn⟩ := ha 0 h0
    refine ⟨-n, fun k => ?_⟩
    induction k with
    | zero =>
      intro _
      rw [(steps hw j hj).1 h0, show item (arg w) 0 j = _ from item_map _ Complex.arg_zero _ _ _, hn]
      push_cast
      ring
    | succ k ih =>
      intro hk
      have ih := ih (by omega)
      have hk' : k + 1 < w.data.length := by rw [hw.rows]; exact hk
      rw [unwrapped_item k j (by omega) hj] at ih
      rw [unwrapped_item (k + 1) j hk' hj]
      have hs := unwrap_step ((arg w).map (·.getD j 0)) k (by rw [arg_length]; exact hk')
      rw [arg_item, arg_item] at hs
      obtain ⟨a, ha'⟩ := ha k (by omega)
      obtain ⟨b, hb⟩ := ha (k + 1) hk
      have := step_eq ((item w.data (k + 1) j).arg - (item w.data k j).arg) (P (k + 1) - P k) (b - a) (by rw [ha', hb]; push_cast; ring) (h.slow k hk)
      linarith
  · exact ⟨0, fun k hk => absurd hk (by omega)⟩

/-! ## Examples -/

/-- A mode with three times. -/
noncomputable def three (A P : Nat → ℝ) : WM ℝ Unit ℂ where
  t := [0, 1, 2]
  frame := []
  data := (List.range 3).map fun k => [(A k : ℂ) * Complex.exp (P k * Complex.I)]
  nCols := 1
  ellMin := 0
  ellMax := 0

theorem three_proper (A P : Nat → ℝ) : Proper (three A P) where
  rows := rfl
  cols r hr := by
    obtain ⟨k, -, rfl⟩ := List.mem_map.1 hr
    rfl

/-- The hypotheses of `follows` hold for a phase that grows by many turns. -/
example : Follows (three (fun _ => 1) fun k => 3 * k) 0 (fun _ => 1) fun k => 3 * k where
  value k hk := by
    have hk : k < 3 := hk
    interval_cases k <;> rfl
  pos _ _ := one_pos
  slow k _ := by
    have := Real.pi_gt_three
    push_cast
    rw [show (3 : ℝ) * (k + 1) - 3 * k = 3 by ring, abs_of_pos (by norm_num)]
    exact this

theorem arg_exp (x : ℝ) (h1 : -Real.pi < x) (h2 : x ≤ Real.pi) : (((1 : ℝ) : ℂ) * Complex.exp (x * Complex.I)).arg = x :=
  by rw [Complex.exp_mul_I]; exact Complex.arg_mul_cos_add_sin_mul_I one_pos ⟨h1, h2⟩

theorem correction_zero (dd : ℝ) (h : |dd| < Real.pi) : correction dd = 0 := if_pos h

/-- That the amplitude does not vanish is needed: where it is 0 at a single time, the phase after it may be off by a full turn. -/
theorem zero_amplitude : ∃ A P : Nat → ℝ, (∀ k, 0 ≤ A k) ∧ (∀ k, |P (k + 1) - P k| < Real.pi) ∧ (∀ k, k < 3 → item (three A P).data k 0 = A k * Complex.exp (P k * Complex.I)) ∧
    item (argUnwrapped (three A P)) 0 0 = P 0 ∧ item (argUnwrapped (three A P)) 2 0 = P 2 - 2 * Real.pi := by
  have hp := Real.pi_pos
  obtain ⟨A, hA⟩ : ∃ A : Nat → ℝ, A = fun k => if k = 1 then 0 else 1 := ⟨_, rfl⟩
  obtain ⟨P, hP⟩ : ∃ P : Nat → ℝ, P = fun k : Nat => ((k : ℝ) + 3) * (Real.pi / 4) := ⟨_, rfl⟩
  have hd : ∀ k, k < 3 → item (three A P).data k 0 = A k * Complex.exp (P k * Complex.I) := by
    intro k hk
    interval_cases k <;> rfl
  have a0 : (item (three A P).data 0 0).arg = 3 * Real.pi / 4 := by
    rw [hd 0 (by norm_num), hA, hP]
    simp only [show ¬ (0 = 1) by norm_num, if_false]
    rw [arg_exp _ (by push_cast; linarith) (by push_cast; linarith)]
    push_cast
    ring
  have a1 : (item (three A P).data 1 0).arg = 0 := by
    rw [hd 1 (by norm_num), hA]
    simp
  have a2 : (item (three A P).data 2 0).arg = -(3 * Real.pi / 4) := by
    rw [hd 2 (by norm_num), hA, hP]
    simp only [show ¬ (2 = 1) by norm_num, if_false]
    rw [← turns (-1), arg_exp _ (by push_cast; linarith) (by push_cast; linarith)]
    push_cast
    ring
  have l : ((arg (three A P)).map (·.getD 0 0)).length = 3 := rfl
  have s1 := unwrap_step ((arg (three A P)).map (·.getD 0 0)) 0 (by rw [l]; norm_num)
  have s2 := unwrap_step ((arg (three A P)).map (·.getD 0 0)) 1 (by rw [l]; norm_num)
  have s0 := unwrap_first ((arg (three A P)).map (·.getD 0 0))
  rw [arg_item] at s0
  rw [arg_item, arg_item] at s1 s2
  norm_num only [zero_add, Nat.reduceAdd] at s1 s2
  rw [a0] at s0
  rw [a0, a1, correction_zero _ (by rw [zero_sub, abs_neg, abs_of_pos (by positivity)]; linarith)] at s1
  rw [a1, a2, correction_zero _ (by rw [sub_zero, abs_neg, abs_of_pos (by positivity)]; linarith)] at s2
  refine ⟨A, P, fun k => ?_, fun k => ?_, hd, ?_, ?_⟩
  · rw [hA]
    dsimp only
    split <;> norm_num
  · rw [hP]
    push_cast
    rw [show ((k : ℝ) + 1 + 3) * (Real.pi / 4) - (k + 3) * (Real.pi / 4) = Real.pi / 4 by ring, abs_of_pos (by positivity)]
    linarith
  · rw [unwrapped_item 0 0 (by show 0 < 3; norm_num) (by show 0 < 1; norm_num), s0, hP]
    push_cast
    ring
  · rw [unwrapped_item 2 0 (by show 2 < 3; norm_num) (by show 0 < 1; norm_num)]
    have e : P 2 = 5 * (Real.pi / 4) := by
      rw [hP]
      push_cast
      ring
    linarith

end Verif.Props.Phase
