import Verif.Spec.TimeSeries
import Mathlib.LinearAlgebra.Lagrange
import Mathlib.Analysis.Calculus.ContDiff.Operations

/-!
# C73: series of modes in time
-/

namespace Verif.Props.TimeSeries

open Verif Verif.TimeSeries Verif.Spec.TimeSeries
open scoped Interval

/-! ## The constructor -/

/-- C73: a series made from data and times (given by position) has these times, and the data and labels of `Modes`. -/
theorem construct_spec (ext : Ext) (a : Arr) (l : Labels) (t : List ℝ) (hg : Good ext) (hc : (a.cols : Int) = (l.ellMax + 1) ^ 2 - l.ellMin ^ 2) (hr : a.rows = t.length ∨ a.rows = 1) :
    construct ext (.arr a) {} [⟨1, .floats t⟩] { spin := some l.spin, ellMin := some l.ellMin, ellMax := some l.ellMax, trunc := some l.trunc } = .ok ⟨a, l, t⟩ := by
  have h1 : ¬ (a.rows ≠ t.length ∧ a.rows ≠ 1) := by tauto
  have h2 := hg.keeps a l (some ⟨1, .floats t⟩) hc
  simp [construct, Meta.update, viewFloat, shaped, h1, h2, ok_bind, pure_eq_ok]

/-- Data whose number of rows is neither that of the times nor 1, times with other than one axis, no times, and three or more positional arguments are refused. -/
theorem construct_raises (ext : Ext) (input : Input) (own : Meta) (args : List TimeArr) (kw : Meta) :
    (3 ≤ args.length → construct ext input own args kw = .error .valueError) ∧
    (args = [] → own.time = none → kw.time = none → construct ext input own args kw = .error .valueError) ∧
    (∀ time, args = [time] → time.ndim ≠ 1 → construct ext input own args kw = .error .valueError) ∧
    (∀ a t, input = .arr a → args = [⟨1, .floats t⟩] → a.rows ≠ t.length → a.rows ≠ 1 → construct ext input own args kw = .error .valueError) := by
  refine ⟨?_, ?_, ?_, ?_⟩
  · intro h
    have : args.length > 2 := h
    simp [construct, this]
  · rintro rfl h1 h2
    simp [construct, Meta.update, h1, h2]
  · rintro time rfl h
    simp [construct, Meta.update, h]
  · rintro a t rfl rfl h1 h2
    simp [construct, Meta.update, viewFloat, shaped, h1, h2, error_bind]

/-! ## Interpolation -/

theorem fits_eq {s : Series} (h : Proper s) : fits s = true := by
  simp only [fits, decide_eq_true_eq]
  exact ⟨h.two, h.inc, h.rows⟩

theorem interpolated_eq (ext : Ext) (s : Series) (hg : Good ext) (hs : Proper s) (t : List ℝ) (n : Int) (hn : n ≤ 3) :
    interpolated ext s ⟨1, .floats t⟩ n = .ok ⟨evaluate ext s t n, s.labels, t⟩ := by
  have h1 : ¬ (n > 3) := by omega
  have h2 := hg.keeps (evaluate ext s t n) s.labels (some ⟨1, .floats t⟩) hs.cols
  have h3 : (evaluate ext s t n).rows = t.length := rfl
  simp [interpolated, interpolate, checkOut, useOut, h1, fits_eq hs, construct, Meta.update, Series.metadata, viewFloat, shaped, Scalars.numbers, h2, h3, ok_bind, pure_eq_ok]

theorem column_length (a : Arr) (i : List Nat) (j : Nat) : (column a i j).length = a.rows := by simp [column]

/-- C73: there are curves through the data of a series, twice continuously differentiable, such that interpolation gives their values at the new times, or those of their derivatives and integrals;
labels and shape stay as they are. -/
theorem interpolate_spec (ext : Ext) (s : Series) (hg : Good ext) (hs : Proper s) :
    ∃ f, Curves s f ∧ ∀ (t : List ℝ) (n : Int), -2 ≤ n → n ≤ 2 →
      ∃ r, interpolated ext s ⟨1, .floats t⟩ n = .ok r ∧ Sampled s r t fun i j => applied (s.time.getD 0 0) (f i j) n := by
  have h : ∀ i j, ∃ f, Through s.time (column s.arr i j) f ∧ ∀ n : Int, -2 ≤ n → n ≤ 2 → ∀ x, ext.fit s.time (column s.arr i j) n x = applied (s.time.getD 0 0) f n x :=
    fun i j => hg.spline _ _ hs.two hs.inc (by rw [column_length, hs.rows])
  choose f h1 h2 using h
  refine ⟨f, h1, fun t n hn1 hn2 => ⟨_, interpolated_eq ext s hg hs t n (by omega), ⟨rfl, rfl, rfl, rfl, rfl, fun i k j _ => ?_⟩⟩⟩
  exact h2 i j n hn1 hn2 _

theorem getD_column (a : Arr) (i : List Nat) (j k : Nat) (hk : k < a.rows) : (column a i j).getD k 0 = a.get i k j := by
  rw [List.getD_eq_getElem?_getD, column, List.getElem?_map, List.getElem?_range hk]
  rfl

/-- C73: interpolation at the times of the series gives the data of the series. -/
theorem interpolate_same (ext : Ext) (s : Series) (hg : Good ext) (hs : Proper s) :
    ∃ r, interpolated ext s ⟨1, .floats s.time⟩ 0 = .ok r ∧ r.time = s.time ∧ r.labels = s.labels ∧ ∀ i k j, k < s.time.length → r.arr.get i k j = s.arr.get i k j := by
  obtain ⟨f, hf, h⟩ := interpolate_spec ext s hg hs
  obtain ⟨r, hr, hS⟩ := h s.time 0 (by norm_num) (by norm_num)
  refine ⟨r, hr, hS.time, hS.labels, fun i k j hk => ?_⟩
  rw [hS.get i k j hk]
  exact ((hf i j).passes k hk).trans (getD_column _ _ _ _ (by rw [hs.rows]; exact hk))

/-- C73: `dot`, `ddot`, `int` and `iint` sample the first and second derivatives and integrals of the same curves through the data, at the same times; the integrals vanish at the first time. -/
theorem derivatives_spec (ext : Ext) (s : Series) (hg : Good ext) (hs : Proper s) :
    ∃ f, Curves s f ∧
      (∃ r, dot ext s = .ok r ∧ Sampled s r s.time fun i j => deriv (f i j)) ∧
      (∃ r, ddot ext s = .ok r ∧ Sampled s r s.time fun i j => deriv (deriv (f i j))) ∧
      (∃ r, int ext s = .ok r ∧ Sampled s r s.time (fun i j x => ∫ y in (s.time.getD 0 0)..x, f i j y) ∧ ∀ i j, r.arr.get i 0 j = 0) ∧
      (∃ r, iint ext s = .ok r ∧ Sampled s r s.time (fun i j x => ∫ y in (s.time.getD 0 0)..x, ∫ z in (s.time.getD 0 0)..y, f i j z) ∧ ∀ i j, r.arr.get i 0 j = 0) := by
  obtain ⟨f, hf, h⟩ := interpolate_spec ext s hg hs
  have h0 : 0 < s.time.length := by have := hs.two; omega
  refine ⟨f, hf, ?_, ?_, ?_, ?_⟩
  · exact h s.time 1 (by norm_num) (by norm_num)
  · exact h s.time 2 (by norm_num) (by norm_num)
  · obtain ⟨r, hr, hS⟩ := h s.time (-1) (by norm_num) (by norm_num)
    refine ⟨r, hr, hS, fun i j => ?_⟩
    rw [hS.get i 0 j h0]
    exact intervalIntegral.integral_same
  · obtain ⟨r, hr, hS⟩ := h s.time (-2) (by norm_num) (by norm_num)
    refine ⟨r, hr, hS, fun i j => ?_⟩
    rw [hS.get i 0 j h0]
    exact intervalIntegral.integral_same

/-- A derivative of order above three, new times with other than one axis, times that do not increase or fewer than two, and data with another number of rows are refused. -/
theorem interpolate_raises (ext : Ext) (s : Series) (t : TimeArr) (n : Int) :
    (t.ndim ≠ 1 → interpolated ext s t n = .error .valueError) ∧ (3 < n → interpolated ext s t n = .error .valueError) ∧
    (¬ (2 ≤ s.time.length ∧ s.time.Pairwise (· < ·) ∧ s.arr.rows = s.time.length) → interpolated ext s t n = .error .valueError) := by
  refine ⟨fun h => ?_, fun h => ?_, fun h => ?_⟩
  · simp [interpolated, interpolate, h, error_bind]
  · by_cases h1 : t.ndim = 1
    · have : n > 3 := h
      simp [interpolated, interpolate, h1, checkOut, useOut, this, ok_bind, error_bind]
    · simp [interpolated, interpolate, h1, error_bind]
  · have hf : fits s = false := by simp only [fits, decide_eq_false_iff_not]; exact h
    by_cases h1 : t.ndim = 1
    · by_cases h2 : n > 3
      · simp [interpolated, interpolate, h1, checkOut, useOut, h2, ok_bind, error_bind]
      · simp [interpolated, interpolate, h1, checkOut, useOut, h2, hf, ok_bind, error_bind]
    · simp [interpolated, interpolate, h1, error_bind]

/-! ## What does not hold -/

/-- The argument `out` cannot be used: for any result of more than one element, the call raises, whatever `out` is. -/
theorem out_raises (ext : Ext) (s : Series) (t : TimeArr) (n : Int) (o : Out) (h : 1 < s.arr.lead.prod * t.vals.length * s.arr.cols) : interpolate ext s t n (some o) = .error .valueError := by
  unfold interpolate
  by_cases h1 : t.ndim = 1
  · simp only [h1, ne_eq, not_true, if_false]
    by_cases h2 : o.arr.lead ≠ s.arr.lead ∨ o.arr.rows ≠ t.vals.length ∨ o.arr.cols ≠ s.arr.cols
    · simp only [checkOut, if_pos h2, error_bind]
    · by_cases h3 : o.complex = false
      · simp only [checkOut, if_neg h2, if_pos h3, error_bind]
      · push Not at h2
        have h4 : 1 < o.arr.size := by simp only [Arr.size, h2.1, h2.2.1, h2.2.2]; exact h
        have h5 : ¬ (o.arr.lead ≠ s.arr.lead ∨ o.arr.rows ≠ t.vals.length ∨ o.arr.cols ≠ s.arr.cols) := by push Not; exact h2
        simp only [checkOut, if_neg h5, if_neg h3, useOut, if_pos h4, ok_bind, error_bind]
  · simp only [ne_eq, h1, not_false_iff, if_true]

/-- Times given as integers are read as if their bits were those of floats: the times of the series are tiny numbers. -/
theorem integer_times (ext : Ext) (a : Arr) (l : Labels) (t : List Int) (ht : ∀ n ∈ t, 0 ≤ n ∧ n < 2 ^ 52) (hg : Good ext) (hc : (a.cols : Int) = (l.ellMax + 1) ^ 2 - l.ellMin ^ 2)
    (hr : a.rows = t.length) :
    construct ext (.arr a) {} [⟨1, .ints t⟩] { spin := some l.spin, ellMin := some l.ellMin, ellMax := some l.ellMax, trunc := some l.trunc } =
      .ok ⟨a, l, t.map fun n : Int => (n : ℝ) * (1 / 2 ^ 1074)⟩ := by
  have hv : viewFloat ext (.ints t) = t.map fun n : Int => (n : ℝ) * (1 / 2 ^ 1074) := by
    simp only [viewFloat]
    refine List.map_congr_left fun n hn => ?_
    rw [if_pos (ht n hn)]
  have h1 : ¬ (a.rows ≠ (t.map fun n : Int => (n : ℝ) * (1 / 2 ^ 1074)).length ∧ a.rows ≠ 1) := by rw [List.length_map]; tauto
  have h2 := hg.keeps a l (some ⟨1, .ints t⟩) hc
  simp only [construct, Meta.update, shaped, List.length_cons, List.length_nil]
  norm_num
  have h3 : a.rows = t.length ∨ a.rows = 1 := Or.inl hr
  simp [hr, h2, hv, ok_bind, pure_eq_ok]

/-- The same happens to the new times of `interpolate`: the values are those at the integers, the times are not. -/
theorem interpolate_integer_times (ext : Ext) (s : Series) (hg : Good ext) (hs : Proper s) (t : List Int) (ht : ∀ n ∈ t, 0 ≤ n ∧ n < 2 ^ 52) :
    interpolated ext s ⟨1, .ints t⟩ 0 = .ok ⟨evaluate ext s (t.map fun n : Int => (n : ℝ)) 0, s.labels, t.map fun n : Int => (n : ℝ) * (1 / 2 ^ 1074)⟩ := by
  have hv : viewFloat ext (.ints t) = t.map fun n : Int => (n : ℝ) * (1 / 2 ^ 1074) := by
    simp only [viewFloat]
    refine List.map_congr_left fun n hn => ?_
    rw [if_pos (ht n hn)]
  have h2 := hg.keeps (evaluate ext s (t.map fun n : Int => (n : ℝ)) 0) s.labels (some ⟨1, .ints t⟩) hs.cols
  have h3 : (evaluate ext s (t.map fun n : Int => (n : ℝ)) 0).rows = t.length := by simp [evaluate]
  simp only [interpolated, interpolate, checkOut, useOut, fits_eq hs, construct, Meta.update, Series.metadata, Scalars.numbers, ok_bind]
  simp [shaped, h2, h3, hv, ok_bind, pure_eq_ok]

/-- Two positional arguments are let through and both ignored: a series keeps its old times. -/
theorem two_positional_ignored (ext : Ext) (s : Series) (hg : Good ext) (hs : Proper s) (t u : TimeArr) : construct ext (.arr s.arr) s.metadata [t, u] {} = .ok s := by
  have h2 := hg.keeps s.arr s.labels (some ⟨1, .floats s.time⟩) hs.cols
  have h1 : ¬ (s.arr.rows ≠ s.time.length ∧ s.arr.rows ≠ 1) := by rw [hs.rows]; tauto
  simp [construct, Meta.update, Series.metadata, viewFloat, shaped, h2, h1, hs.rows, ok_bind, pure_eq_ok]

/-! ## The assumptions can be met -/

/-- The polynomial through the points. -/
noncomputable def lagrange (t : List ℝ) (y : List ℂ) : Polynomial ℂ := Lagrange.interpolate (Finset.range t.length) (fun i => ((t.getD i 0 : ℝ) : ℂ)) (fun i => y.getD i 0)

/-- Splines replaced by polynomials. -/
noncomputable def sampleExt : Ext where
  bits := fun _ => 0
  modes := fun a m => .ok (⟨m.spin.getD 0, m.ellMin.getD 0, m.ellMax.getD 0, m.trunc.getD .sum⟩, a)
  fit := fun t y n s => applied (t.getD 0 0) (fun x : ℝ => (lagrange t y).eval (x : ℂ)) n s

theorem sample_good : Good sampleExt := by
  refine ⟨fun t y _ hinc hl => ⟨fun x : ℝ => (lagrange t y).eval (x : ℂ), ⟨?_, fun i hi => ?_⟩, fun n _ _ s => rfl⟩, fun a l time _ => by cases l; rfl⟩
  · have h1 : (fun x : ℝ => (lagrange t y).eval (x : ℂ)) = fun x : ℝ => ∑ i ∈ Finset.range ((lagrange t y).natDegree + 1), (lagrange t y).coeff i * (Complex.ofRealCLM x) ^ i := by
      funext x
      rw [Polynomial.eval_eq_sum_range]
      rfl
    rw [h1]
    exact ContDiff.sum fun i _ => contDiff_const.mul ((Complex.ofRealCLM.contDiff).pow i)
  · refine Lagrange.eval_interpolate_at_node (v := fun i => ((t.getD i 0 : ℝ) : ℂ)) (fun i => y.getD i 0) ?_ (Finset.mem_range.mpr hi)
    intro a ha b hb hab
    simp only [Finset.coe_range, Set.mem_Iio] at ha hb
    have hab' : t.getD a 0 = t.getD b 0 := Complex.ofReal_injective hab
    rw [List.getD_eq_getElem?_getD, List.getD_eq_getElem?_getD, List.getElem?_eq_getElem ha, List.getElem?_eq_getElem hb] at hab'
    simp only [Option.getD_some] at hab'
    have := List.pairwise_iff_getElem.mp hinc
    rcases lt_trichotomy a b with h | h | h
    · exact absurd hab' (this a b ha hb h).ne
    · exact h
    · exact absurd hab' (this b a hb ha h).ne'

/-- A series with a mode for each `ℓ ≤ 1`, at three times. -/
def sample : Series := ⟨⟨[], 3, 4, fun _ r j => (r : ℂ) + j⟩, ⟨0, 0, 1, .max⟩, [0, 1, 3]⟩

theorem sample_proper : Proper sample := ⟨by decide, by simp [sample], rfl, by norm_num [sample]⟩

/-- `dot` of the sample exists and keeps its labels. -/
example : ∃ r, dot sampleExt sample = .ok r ∧ r.labels = sample.labels ∧ r.time = [0, 1, 3] := by
  obtain ⟨f, -, ⟨r, hr, h⟩, -⟩ := derivatives_spec _ _ sample_good sample_proper
  exact ⟨r, hr, h.labels, h.time⟩

/-- With `out` of the right shape, the call raises. -/
example (o : Out) : interpolate sampleExt sample ⟨1, .floats [0, 1, 3]⟩ 0 (some o) = .error .valueError := out_raises _ _ _ _ _ (by decide)

end Verif.Props.TimeSeries
