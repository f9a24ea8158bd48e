import Verif.Spec.WaveSpline
import Verif.Lemmas.Align
import Verif.Lemmas.Rotation
import Verif.Lemmas.AbdRotated
import Verif.Props.Flux
import Verif.Props.TimeSeries
import Mathlib.Analysis.Calculus.Deriv.Polynomial
import Mathlib.Analysis.SpecialFunctions.ExpDeriv

/-!
# C100: interpolation, derivatives and integrals of waveforms
-/

namespace Verif.Props.WaveSpline
open Verif Verif.Modes Verif.WaveSpline Verif.Slicing Verif.Spec.WaveSpline Verif.Spec.TimeSeries
open Verif.AbdTransform (expRotor)
open Verif.Spec.Rotation (UnitRotor rot)

variable {ext : Ext} {w : WM ℝ (Quaternion ℝ) ℂ}

/-! ## Data -/

theorem column_length (w : WM ℝ (Quaternion ℝ) ℂ) (j : Nat) : (column w.data j).length = w.data.length := List.length_map _

theorem column_item (data : List (List ℂ)) (k j : Nat) : (column data j).getD k 0 = item data k j := by
  unfold column item
  rw [List.getD_eq_getElem?_getD, List.getElem?_map, List.getD_eq_getElem?_getD (l := data)]
  cases data[k]? <;> simp

theorem spline_ok (hw : Spec.WaveSpline.Proper w) (n : Int) (ts : List ℝ) : spline ext w n ts = .ok (ts.map fun s => (List.range w.nCols).map fun j => ext.fit w.t (column w.data j) n s) :=
  if_pos ⟨hw.two, hw.inc, hw.rows⟩

theorem sampled (n : Nat) (ts : List ℝ) (f : Nat → ℝ → ℂ) : Spec.WaveSpline.Sampled (ts.map fun s => (List.range n).map fun j => f j s) n ts f := by
  refine ⟨List.length_map _, fun r hr => ?_, fun k j hk hj => ?_⟩
  · obtain ⟨s, -, rfl⟩ := List.mem_map.1 hr
    simp
  · unfold item
    have hk' : k < (ts.map fun s => (List.range n).map fun j => f j s).length := by simpa using hk
    rw [List.getD_eq_getElem (ts.map fun s => (List.range n).map fun j => f j s) [] hk', List.getElem_map, List.getD_eq_getElem _ _ (by simpa using hj), List.getElem_map, List.getElem_range, List.getD_eq_getElem _ _ hk]

/-- The curves of a waveform. -/
theorem curves (hg : Spec.WaveSpline.Good ext) (hw : Spec.WaveSpline.Proper w) :
    ∃ f, Spec.WaveSpline.Curves w f ∧ ∀ (n : Int), -2 ≤ n → n ≤ 2 → ∀ ts, ∃ d, spline ext w n ts = .ok d ∧ Spec.WaveSpline.Sampled d w.nCols ts fun j => applied (w.t.getD 0 0) (f j) n := by
  have h : ∀ j, ∃ f, Through w.t (column w.data j) f ∧ ∀ n : Int, -2 ≤ n → n ≤ 2 → ∀ s, ext.fit w.t (column w.data j) n s = applied (w.t.getD 0 0) f n s :=
    fun j => hg.curve _ _ hw.two hw.inc (by rw [column_length, hw.rows])
  choose f h1 h2 using h
  refine ⟨f, fun j => ⟨(h1 j).smooth, fun k hk => ((h1 j).passes k hk).trans (column_item _ _ _)⟩, fun n n1 n2 ts => ⟨_, spline_ok hw n ts, ?_⟩⟩
  have e : (ts.map fun s => (List.range w.nCols).map fun j => ext.fit w.t (column w.data j) n s) = ts.map fun s => (List.range w.nCols).map fun j => applied (w.t.getD 0 0) (f j) n s := by
    refine List.map_congr_left fun s _ => List.map_congr_left fun j _ => ?_
    exact h2 j n n1 n2 s
  rw [e]
  exact sampled _ _ _

/-- **C100**: `data_dot`, `data_ddot`, `data_int` and `data_iint` have the values at the times of the derivatives and integrals (from the first time) of one smooth curve for each column, the curve that `interpolate` samples. -/
theorem derivatives_spec (hg : Spec.WaveSpline.Good ext) (hw : Spec.WaveSpline.Proper w) : ∃ f, Spec.WaveSpline.Curves w f ∧
    (∃ d, dataDot ext w = .ok d ∧ Spec.WaveSpline.Sampled d w.nCols w.t fun j => deriv (f j)) ∧
    (∃ d, dataDdot ext w = .ok d ∧ Spec.WaveSpline.Sampled d w.nCols w.t fun j => deriv (deriv (f j))) ∧
    (∃ d, dataInt ext w = .ok d ∧ Spec.WaveSpline.Sampled d w.nCols w.t fun j s => ∫ x in (w.t.getD 0 0)..s, f j x) ∧
    (∃ d, dataIint ext w = .ok d ∧ Spec.WaveSpline.Sampled d w.nCols w.t fun j s => ∫ x in (w.t.getD 0 0)..s, ∫ y in (w.t.getD 0 0)..x, f j y) ∧
    ∀ ts, (w.frame = [] ∨ ts ≠ []) → ∃ r, interpolate ext w ts = .ok r ∧ Spec.WaveSpline.Sampled r.data w.nCols ts f ∧ r.t = ts ∧ r.ellMin = w.ellMin ∧ r.ellMax = w.ellMax ∧ r.nCols = w.nCols ∧
      r.frame.length = if w.frame = [] then 0 else ts.length := by
  obtain ⟨f, hf, h⟩ := curves hg hw
  refine ⟨f, hf, h 1 (by norm_num) (by norm_num) w.t, h 2 (by norm_num) (by norm_num) w.t, h (-1) (by norm_num) (by norm_num) w.t, h (-2) (by norm_num) (by norm_num) w.t, fun ts ht => ?_⟩
  obtain ⟨d, e, hd⟩ := h 0 (by norm_num) (by norm_num) ts
  have hfr : ∃ R, squad ext w.frame w.t ts = .ok R ∧ R.length = if w.frame = [] then 0 else ts.length := by
    unfold squad
    by_cases h0 : w.frame = []
    · exact ⟨[], by rw [if_pos (.inl h0)], by rw [if_pos h0]; rfl⟩
    · have hl := hw.frame.resolve_left h0
      have h2 := hw.two
      rw [if_neg (by have := ht.resolve_left h0; tauto), if_neg (by omega), if_neg (by omega), if_neg h0]
      exact ⟨_, rfl, List.length_map _⟩
  obtain ⟨R, hR, hl⟩ := hfr
  refine ⟨{ w with t := ts, frame := R, data := d }, ?_, hd, rfl, rfl, rfl, rfl, hl⟩
  unfold interpolate
  rw [hR, e]
  rfl

/-- Data with fewer than two times, or times that do not increase, are refused. -/
theorem refused (n : Int) (ts : List ℝ) (h : w.t.length < 2 ∨ ¬ w.t.Pairwise (· < ·) ∨ w.data.length ≠ w.t.length) : spline ext w n ts = .error .valueError := by
  refine if_neg fun h' => ?_
  rcases h with h | h | h
  · omega
  · exact h h'.2.1
  · exact h h'.2.2

/-! ## Cubics -/

theorem deriv_eval (p : Polynomial ℂ) : deriv (fun x : ℝ => p.eval (x : ℂ)) = fun x : ℝ => p.derivative.eval (x : ℂ) := by
  funext x
  exact ((p.hasDerivAt (x : ℂ)).comp_ofReal).deriv

theorem integral_eval (p q : Polynomial ℂ) (h : q.derivative = p) (a s : ℝ) : ∫ x in a..s, p.eval (x : ℂ) = q.eval (s : ℂ) - q.eval (a : ℂ) := by
  refine intervalIntegral.integral_eq_sub_of_hasDerivAt (f := fun x : ℝ => q.eval (x : ℂ)) (fun x _ => ?_) ?_
  · have := (q.hasDerivAt (x : ℂ)).comp_ofReal
    rwa [h] at this
  · refine Continuous.intervalIntegrable ?_ a s
    have h1 : Continuous fun z : ℂ => p.eval z := continuous_iff_continuousAt.2 fun z => (p.hasDerivAt z).continuousAt
    exact h1.comp Complex.continuous_ofReal

/-- **C100**: if a column has the values of a polynomial of degree up to three (less for fewer than four times), the values between the times, the derivatives and the integrals are exactly those of the polynomial. -/
theorem cubic_exact (hg : Spec.WaveSpline.Good ext) (hw : Spec.WaveSpline.Proper w) (j : Nat) (hj : j < w.nCols) (p q : Polynomial ℂ) (hp : p.natDegree < min 4 w.t.length) (hq : q.derivative = p)
    (h : ∀ k, k < w.t.length → item w.data k j = p.eval ((w.t.getD k 0 : ℝ) : ℂ)) :
    (∀ ts d, spline ext w 0 ts = .ok d → ∀ k, k < ts.length → item d k j = p.eval ((ts.getD k 0 : ℝ) : ℂ)) ∧
    (∀ d, dataDot ext w = .ok d → ∀ k, k < w.t.length → item d k j = p.derivative.eval ((w.t.getD k 0 : ℝ) : ℂ)) ∧
    (∀ d, dataDdot ext w = .ok d → ∀ k, k < w.t.length → item d k j = p.derivative.derivative.eval ((w.t.getD k 0 : ℝ) : ℂ)) ∧
    (∀ d, dataInt ext w = .ok d → ∀ k, k < w.t.length → item d k j = q.eval ((w.t.getD k 0 : ℝ) : ℂ) - q.eval ((w.t.getD 0 0 : ℝ) : ℂ)) := by
  have hc : column w.data j = w.t.map fun x : ℝ => p.eval (x : ℂ) := by
    apply List.ext_getElem
    · rw [column_length, hw.rows, List.length_map]
    · intro k h1 h2
      have hk : k < w.t.length := by simpa using h2
      have e := h k hk
      rw [← column_item, List.getD_eq_getElem _ _ h1, List.getD_eq_getElem _ _ hk] at e
      rw [e, List.getElem_map]
  obtain ⟨f, -, h2⟩ := hg.curve w.t (column w.data j) hw.two hw.inc (by rw [column_length, hw.rows])
  have hf : f = fun x : ℝ => p.eval (x : ℂ) := by
    funext s
    have e := hg.cubic w.t p hw.two hw.inc hp s
    rw [← hc, h2 0 (by norm_num) (by norm_num)] at e
    exact e
  have key : ∀ n : Int, -2 ≤ n → n ≤ 2 → ∀ ts d, spline ext w n ts = .ok d → ∀ k, k < ts.length → item d k j = applied (w.t.getD 0 0) f n (ts.getD k 0) := by
    intro n n1 n2 ts d hd k hk
    rw [spline_ok hw] at hd
    rw [← Except.ok.inj hd, (sampled w.nCols ts fun j s => ext.fit w.t (column w.data j) n s).2.2 k j hk hj]
    exact h2 n n1 n2 _
  refine ⟨fun ts d hd k hk => ?_, fun d hd k hk => ?_, fun d hd k hk => ?_, fun d hd k hk => ?_⟩
  · rw [key 0 (by norm_num) (by norm_num) ts d hd k hk, hf]
    rfl
  · rw [key 1 (by norm_num) (by norm_num) _ d hd k hk, hf]
    show deriv _ _ = _
    rw [deriv_eval]
  · rw [key 2 (by norm_num) (by norm_num) _ d hd k hk, hf]
    show deriv (deriv _) _ = _
    rw [deriv_eval, deriv_eval]
  · rw [key (-1) (by norm_num) (by norm_num) _ d hd k hk, hf]
    exact integral_eval p q hq _ _

/-! ## Frames -/

theorem filter_le (t : List ℝ) (ht : t.Pairwise (· < ·)) (s : ℝ) (i : Nat) (hi : i < t.length) (h1 : t.getD i 0 ≤ s) (h2 : ∀ h : i + 1 < t.length, s < t.getD (i + 1) 0) : interval t s = i := by
  have key : ∀ (t : List ℝ), t.Pairwise (· < ·) → ∀ i, i < t.length → t.getD i 0 ≤ s → (i + 1 < t.length → s < t.getD (i + 1) 0) → (open Classical in (t.filter fun x => x ≤ s).length) = i + 1 := by
    intro t
    induction t with
    | nil => intro _ i hi; simp at hi
    | cons a t ih =>
      intro ht i hi h1 h2
      rw [List.pairwise_cons] at ht
      have ha : a ≤ s := by
        rcases i with _ | i
        · simpa using h1
        · have hi' : i < t.length := by simpa using hi
          have : t.getD i 0 ≤ s := by simpa using h1
          rw [List.getD_eq_getElem _ _ hi'] at this
          exact ((ht.1 _ (List.getElem_mem hi')).le).trans this
      rw [List.filter_cons, if_pos (by simpa using ha), List.length_cons]
      congr 1
      rcases i with _ | i
      · rw [List.length_eq_zero_iff, List.filter_eq_nil_iff]
        intro x hx
        rw [decide_eq_true_eq, not_le]
        rcases t with _ | ⟨b, t⟩
        · simp at hx
        · have hb : s < b := by simpa using h2 (by simp)
          rcases List.mem_cons.1 hx with rfl | hx
          · exact hb
          · exact hb.trans ((List.pairwise_cons.1 ht.2).1 x hx)
      · refine ih ht.2 i (by simpa using hi) (by simpa using h1) fun h => ?_
        have := h2 (by simpa using h)
        simpa using this
  unfold interval
  rw [key t ht i hi h1 h2]
  simp

theorem interval_at (t : List ℝ) (ht : t.Pairwise (· < ·)) (i : Nat) (hi : i < t.length) : interval t (t.getD i 0) = i := by
  refine filter_le t ht _ i hi le_rfl fun h => ?_
  rw [List.getD_eq_getElem _ _ hi, List.getD_eq_getElem _ _ h]
  exact List.pairwise_iff_getElem.1 ht i (i + 1) hi h (by omega)

theorem squad_at (hg : Spec.WaveSpline.Good ext) (R : List (Quaternion ℝ)) (t : List ℝ) (ht : t.Pairwise (· < ·)) (i : Nat) (hi : i < t.length) : squadAt ext R t (t.getD i 0) = R.getD i 0 := by
  unfold squadAt
  simp only [interval_at t ht i hi, sub_self, zero_div, mul_zero, zero_mul]
  rw [hg.slerp_zero, hg.slerp_zero]

/-- **C100**: interpolation to the times of the waveform changes nothing. -/
theorem interpolate_same (hg : Spec.WaveSpline.Good ext) (hw : Spec.WaveSpline.Proper w) : interpolate ext w w.t = .ok w := by
  have h2 := hw.two
  have e1 : squad ext w.frame w.t w.t = .ok w.frame := by
    unfold squad
    by_cases h0 : w.frame = []
    · rw [if_pos (.inl h0), h0]
    · have hl := hw.frame.resolve_left h0
      have ht : w.t ≠ [] := fun h => by rw [h] at h2; simp at h2
      rw [if_neg (by tauto), if_neg (by omega), if_neg (by omega)]
      congr 1
      apply List.ext_getElem
      · rw [List.length_map, hl]
      · intro k k1 k2
        have hk : k < w.t.length := by simpa using k1
        rw [List.getElem_map, ← List.getD_eq_getElem w.t 0 hk, squad_at hg _ _ hw.inc k hk, List.getD_eq_getElem _ _ k2]
  have e2 : spline ext w 0 w.t = .ok w.data := by
    rw [spline_ok hw]
    congr 1
    have h := sampled w.nCols w.t fun j s => ext.fit w.t (column w.data j) 0 s
    apply List.ext_getElem
    · rw [List.length_map, hw.rows]
    · intro k k1 k2
      have hk : k < w.t.length := by simpa using k1
      have hr := hw.cols _ (List.getElem_mem k2)
      apply List.ext_getElem
      · simp [hr]
      · intro j j1 j2
        have hj : j < w.nCols := by rw [← hr]; exact j2
        obtain ⟨f, f1, f2⟩ := hg.curve w.t (column w.data j) hw.two hw.inc (by rw [column_length, hw.rows])
        simp only [List.getElem_map, List.getElem_range]
        rw [f2 0 (by norm_num) (by norm_num)]
        show f _ = _
        have := f1.passes k hk
        rw [column_item, List.getD_eq_getElem _ _ hk] at this
        rw [this]
        unfold item
        rw [List.getD_eq_getElem _ _ k2, List.getD_eq_getElem _ _ j2]
  unfold interpolate
  rw [e1, e2]
  rfl

/-- **C100** (refutation): a waveform with a constant frame, given by one rotor, cannot be interpolated. -/
theorem one_rotor_fails (R : Quaternion ℝ) (hR : w.frame = [R]) (ts : List ℝ) (ht : ts ≠ []) : interpolate ext w ts = .error .indexError := by
  unfold interpolate squad
  rw [hR, if_neg (by simp [ht]), if_pos (show [R].length = 1 from rfl)]
  rfl

/-! ### A uniform rotation -/

theorem rotor_add {n : Fin 3 → ℝ} (hn : Unit3 n) (x y : ℝ) : expRotor n x * expRotor n y = expRotor n (x + y) := by
  unfold Unit3 at hn
  have c0 : ∀ x, (expRotor n x).re = Real.cos x := fun _ => rfl
  have c1 : ∀ x, (expRotor n x).imI = Real.sin x * n 0 := fun _ => rfl
  have c2 : ∀ x, (expRotor n x).imJ = Real.sin x * n 1 := fun _ => rfl
  have c3 : ∀ x, (expRotor n x).imK = Real.sin x * n 2 := fun _ => rfl
  refine Quaternion.ext _ _ ?_ ?_ ?_ ?_
  · rw [Quaternion.re_mul, c0, c0, c0, c1, c1, c2, c2, c3, c3, Real.cos_add]
    linear_combination (-(Real.sin x * Real.sin y)) * hn
  · rw [Quaternion.imI_mul, c0, c0, c1, c1, c1, c2, c2, c3, c3, Real.sin_add]
    ring
  · rw [Quaternion.imJ_mul, c0, c0, c1, c1, c2, c2, c2, c3, c3, Real.sin_add]
    ring
  · rw [Quaternion.imK_mul, c0, c0, c1, c1, c2, c2, c3, c3, c3, Real.sin_add]
    ring

theorem rotor_star (n : Fin 3 → ℝ) (x : ℝ) : star (expRotor n x) = expRotor n (-x) := by
  have c0 : ∀ x, (expRotor n x).re = Real.cos x := fun _ => rfl
  have c1 : ∀ x, (expRotor n x).imI = Real.sin x * n 0 := fun _ => rfl
  have c2 : ∀ x, (expRotor n x).imJ = Real.sin x * n 1 := fun _ => rfl
  have c3 : ∀ x, (expRotor n x).imK = Real.sin x * n 2 := fun _ => rfl
  refine Quaternion.ext _ _ ?_ ?_ ?_ ?_ <;> simp [c0, c1, c2, c3]

theorem rotor_unit' {n : Fin 3 → ℝ} (hn : Unit3 n) (x : ℝ) : UnitRotor (expRotor n x) := by
  unfold UnitRotor Unit3 at *
  rw [Quaternion.normSq_def']
  simp only [expRotor]
  linear_combination Real.sin x ^ 2 * hn + Real.sin_sq_add_cos_sq x

theorem unit_star {Q : Quaternion ℝ} (h : UnitRotor Q) : star Q * Q = 1 := by
  rw [Quaternion.star_mul_self]
  unfold UnitRotor at h
  rw [h]
  rfl

theorem step {Q : Quaternion ℝ} (hQ : UnitRotor Q) {n : Fin 3 → ℝ} (hn : Unit3 n) (x y : ℝ) : star (Q * expRotor n x) * (Q * expRotor n y) = expRotor n (y - x) := by
  rw [star_mul, rotor_star, mul_assoc, ← mul_assoc (star Q), unit_star hQ, one_mul, rotor_add hn]
  congr 1
  ring

theorem pure_mul (c : ℝ) (n : Fin 3 → ℝ) (a : ℝ) : (c : Quaternion ℝ) * pureQuat n a = pureQuat n (c * a) := by
  have c0 : ∀ a, (pureQuat n a).re = 0 := fun _ => rfl
  have c1 : ∀ a, (pureQuat n a).imI = a * n 0 := fun _ => rfl
  have c2 : ∀ a, (pureQuat n a).imJ = a * n 1 := fun _ => rfl
  have c3 : ∀ a, (pureQuat n a).imK = a * n 2 := fun _ => rfl
  refine Quaternion.ext _ _ ?_ ?_ ?_ ?_ <;> simp [c0, c1, c2, c3] <;> ring

theorem pure_add (n : Fin 3 → ℝ) (a b : ℝ) : pureQuat n a + pureQuat n b = pureQuat n (a + b) := by
  have c0 : ∀ a, (pureQuat n a).re = 0 := fun _ => rfl
  have c1 : ∀ a, (pureQuat n a).imI = a * n 0 := fun _ => rfl
  have c2 : ∀ a, (pureQuat n a).imJ = a * n 1 := fun _ => rfl
  have c3 : ∀ a, (pureQuat n a).imK = a * n 2 := fun _ => rfl
  refine Quaternion.ext _ _ ?_ ?_ ?_ ?_ <;> simp [c0, c1, c2, c3] <;> ring

theorem pure_neg (n : Fin 3 → ℝ) (a : ℝ) : -pureQuat n a = pureQuat n (-a) := by
  have c0 : ∀ a, (pureQuat n a).re = 0 := fun _ => rfl
  have c1 : ∀ a, (pureQuat n a).imI = a * n 0 := fun _ => rfl
  have c2 : ∀ a, (pureQuat n a).imJ = a * n 1 := fun _ => rfl
  have c3 : ∀ a, (pureQuat n a).imK = a * n 2 := fun _ => rfl
  refine Quaternion.ext _ _ ?_ ?_ ?_ ?_ <;> simp [c0, c1, c2, c3]

theorem pure_zero (n : Fin 3 → ℝ) : pureQuat n 0 = 0 := by
  refine Quaternion.ext _ _ ?_ ?_ ?_ ?_
  · rfl
  · exact zero_mul _
  · exact zero_mul _
  · exact zero_mul _

/-- **C100**: the frame of a uniform rotation, by less than half a turn from one time to the next, is interpolated exactly. -/
theorem uniform_rotation (hg : Spec.WaveSpline.Good ext) (hw : Spec.WaveSpline.Proper w) {Q : Quaternion ℝ} (hQ : UnitRotor Q) {n : Fin 3 → ℝ} (hn : Unit3 n) (omega : ℝ)
    (hf : w.frame = w.t.map fun s => Q * expRotor n (omega * s / 2)) (hslow : ∀ i, i + 1 < w.t.length → |omega * (w.t.getD (i + 1) 0 - w.t.getD i 0)| < Real.pi)
    (ts : List ℝ) (hts : ∀ s ∈ ts, w.t.getD 0 0 ≤ s ∧ s ≤ w.t.getD (w.t.length - 1) 0) :
    ∃ r, interpolate ext w ts = .ok r ∧ r.frame = ts.map fun s => Q * expRotor n (omega * s / 2) := by
  have h2 := hw.two
  obtain ⟨t, ht⟩ : ∃ t, t = w.t := ⟨_, rfl⟩
  have hl : w.frame.length = t.length := by rw [hf, List.length_map, ht]
  have hr : ∀ i, i < t.length → w.frame.getD i 0 = Q * expRotor n (omega * t.getD i 0 / 2) := by
    intro i hi
    have hi' : i < w.t.length := ht ▸ hi
    rw [List.getD_eq_getElem _ _ (by rw [hl]; exact hi), List.getD_eq_getElem _ _ hi]
    simp only [hf, List.getElem_map, ht]
  have hinc : ∀ i, i + 1 < t.length → t.getD i 0 < t.getD (i + 1) 0 := by
    intro i hi
    rw [List.getD_eq_getElem _ _ (by omega), List.getD_eq_getElem _ _ hi]
    exact List.pairwise_iff_getElem.1 (ht ▸ hw.inc) i (i + 1) (by omega) hi (by omega)
  rw [← ht] at hslow hts h2
  have hs2 : ∀ i, i + 1 < t.length → |omega * t.getD (i + 1) 0 / 2 - omega * t.getD i 0 / 2| < Real.pi / 2 := by
    intro i hi
    have := hslow i hi
    rw [show omega * t.getD (i + 1) 0 / 2 - omega * t.getD i 0 / 2 = omega * (t.getD (i + 1) 0 - t.getD i 0) / 2 by ring, abs_div, abs_two]
    linarith
  have hlog : ∀ i, i + 1 < t.length → ext.log (star (w.frame.getD i 0) * w.frame.getD (i + 1) 0) = pureQuat n (omega * t.getD (i + 1) 0 / 2 - omega * t.getD i 0 / 2) := by
    intro i hi
    rw [hr i (by omega), hr (i + 1) hi, step hQ hn]
    exact hg.log_exp _ _ hn (by linarith [hs2 i hi, Real.pi_pos])
  have hA : ∀ i, i < t.length → coefA ext w.frame t i = w.frame.getD i 0 := by
    intro i hi
    unfold coefA
    simp only
    by_cases h0 : i = 0 ∨ i + 1 = w.frame.length
    · rw [if_pos h0]
    · rw [if_neg h0]
      obtain ⟨k, rfl⟩ : ∃ k, i = k + 1 := ⟨i - 1, by omega⟩
      have hk : k + 1 + 1 < t.length := by omega
      have d1 := hinc k hi
      rw [hlog (k + 1) hk, Nat.add_sub_cancel, hlog k hi, pure_mul, pure_neg, pure_add, pure_mul]
      have e : (0.25 : ℝ) * (-(omega * t.getD (k + 1 + 1) 0 / 2 - omega * t.getD (k + 1) 0 / 2) +
          (t.getD (k + 1 + 1) 0 - t.getD (k + 1) 0) / (t.getD (k + 1) 0 - t.getD k 0) * (omega * t.getD (k + 1) 0 / 2 - omega * t.getD k 0 / 2)) = 0 := by
        have : t.getD (k + 1) 0 - t.getD k 0 ≠ 0 := by linarith
        field_simp
        ring
      rw [e, pure_zero, hg.exp_zero, mul_one]
  have hB : ∀ i, i + 1 < t.length → coefB ext w.frame t i = w.frame.getD (i + 1) 0 := by
    intro i hi
    unfold coefB
    simp only
    by_cases h0 : i + 2 < w.frame.length
    · rw [if_pos h0]
      have d1 := hinc (i + 1) (by omega)
      rw [hlog i hi, hlog (i + 1) (by omega), pure_mul, sub_eq_add_neg, pure_neg, pure_add, pure_mul]
      have e : (-0.25 : ℝ) * ((t.getD (i + 1) 0 - t.getD i 0) / (t.getD (i + 2) 0 - t.getD (i + 1) 0) * (omega * t.getD (i + 1 + 1) 0 / 2 - omega * t.getD (i + 1) 0 / 2) +
          -(omega * t.getD (i + 1) 0 / 2 - omega * t.getD i 0 / 2)) = 0 := by
        have : t.getD (i + 2) 0 - t.getD (i + 1) 0 ≠ 0 := by linarith
        field_simp
        ring
      rw [e, pure_zero, hg.exp_zero, mul_one]
    · rw [if_neg h0]
      exact if_pos (by omega)
  have key : ∀ s ∈ ts, squadAt ext w.frame t s = Q * expRotor n (omega * s / 2) := by
    intro s hs
    obtain ⟨s1, s2⟩ := hts s hs
    -- the interval
    obtain ⟨i, hi, i1, i2⟩ : ∃ i, i < t.length ∧ t.getD i 0 ≤ s ∧ ∀ h : i + 1 < t.length, s < t.getD (i + 1) 0 := by
      by_contra hcon
      push Not at hcon
      have : ∀ i, i < t.length → t.getD i 0 ≤ s := by
        intro i
        induction i with
        | zero => intro _; exact s1
        | succ i ih =>
          intro hi
          obtain ⟨h, h'⟩ := hcon i (by omega) (ih (by omega))
          exact h'
      obtain ⟨h, -⟩ := hcon (t.length - 1) (by omega) (this _ (by omega))
      omega
    by_cases hlast : i + 1 < t.length
    · unfold squadAt
      simp only [filter_le t (ht ▸ hw.inc) s i hi i1 i2]
      have e1 : nextRotor w.frame i = w.frame.getD (i + 1) 0 := if_pos (by omega)
      have e2 : nextTime t i = t.getD (i + 1) 0 := if_pos hlast
      rw [hA i hi, hB i hlast, e1, e2, hg.slerp_self]
      have e3 : w.frame.getD (i + 1) 0 = w.frame.getD i 0 * expRotor n (omega * t.getD (i + 1) 0 / 2 - omega * t.getD i 0 / 2) := by
        rw [hr _ hlast, hr i hi, mul_assoc, rotor_add hn]
        congr 2
        ring
      have hu : UnitRotor (w.frame.getD i 0) := by
        rw [hr i hi]
        have := rotor_unit' hn (omega * t.getD i 0 / 2)
        unfold UnitRotor at *
        rw [map_mul, hQ, this, one_mul]
      rw [e3, hg.slerp_arc _ _ _ _ hu hn (hs2 i hlast), hr i hi, mul_assoc, rotor_add hn]
      congr 2
      have := hinc i hlast
      have : t.getD (i + 1) 0 - t.getD i 0 ≠ 0 := by linarith
      field_simp
      ring
    · have : i = t.length - 1 := by omega
      have hs' : s = t.getD i 0 := le_antisymm (this ▸ s2) i1
      rw [hs', squad_at hg _ _ (ht ▸ hw.inc) i hi, hr i hi]
  have e1 : squad ext w.frame w.t ts = .ok (ts.map fun s => Q * expRotor n (omega * s / 2)) := by
    unfold squad
    rcases ts with _ | ⟨a, ts⟩
    · rw [if_pos (.inr rfl)]
      rfl
    · rw [if_neg (by
        intro h
        rcases h with h | h
        · rw [h] at hl
          simp only [List.length_nil] at hl
          omega
        · simp at h), if_neg (by omega), if_neg (by rw [hl, ht]; simp), ← ht]
      congr 1
      exact List.map_congr_left key
  have e2 : interpolate ext w ts = .ok { w with t := ts, frame := ts.map fun s => Q * expRotor n (omega * s / 2), data := ts.map fun s => (List.range w.nCols).map fun j => ext.fit w.t (column w.data j) 0 s } := by
    unfold interpolate
    rw [e1, spline_ok hw]
    rfl
  exact ⟨_, e2, rfl⟩

/-! ## The energy flux in a constant frame -/

/-- **C100**: in any constant frame `energy_flux` of a strain is the flux of the curves through the data at each time, whatever the frame is. -/
theorem constant_frame_flux (hg : Spec.WaveSpline.Good ext) (hw : Spec.WaveSpline.Proper w) (h0 : 0 ≤ w.ellMin) (hmax : w.ellMin - 1 ≤ w.ellMax) (hn : (w.nCols : Int) = (w.ellMax + 1) ^ 2 - w.ellMin ^ 2) :
    ∃ f, Spec.WaveSpline.Curves w f ∧ ∀ R, UnitRotor R → energyFlux ext Weights.h w =
      .ok (w.t.map (trueFlux w.ellMin w.ellMax (fun _ => R) fun u ell m => f (lmIndex ell m w.ellMin).toNat u)) := by
  obtain ⟨f, hf, h⟩ := curves hg hw
  refine ⟨f, hf, fun R hR => ?_⟩
  obtain ⟨d, e, d1, d2, d3⟩ := h 1 (by norm_num) (by norm_num) w.t
  unfold energyFlux
  rw [if_pos rfl]
  unfold dataDot
  rw [e, ok_bind]
  have hv : Spec.Slicing.Valid { forget w with data := d } :=
    { frame := by simp [forget], rows := d1, cols := d2, min := h0, max := hmax, modes := hn }
  rw [(Props.Flux.energy_flux_types Weights.h _ (forget w)).1 rfl, Props.Flux.energy_flux _ _ hv]
  congr 1
  apply List.ext_getElem
  · simp [forget]
  intro k k1 k2
  have hk : k < w.t.length := by simpa using k2
  simp only [List.getElem_map, List.getElem_range]
  unfold trueFlux
  congr 1
  refine Finset.sum_congr rfl fun ell hell => ?_
  obtain ⟨l1, l2⟩ := Finset.mem_Icc.1 hell
  change w.ellMin ≤ ell at l1
  change ell ≤ w.ellMax at l2
  have hd : ∀ m, deriv (fun u => rot ell (star R) (fun m => f (lmIndex ell m w.ellMin).toNat u) m) w.t[k] =
      rot ell (star R) (fun m => deriv (f (lmIndex ell m w.ellMin).toNat) w.t[k]) m := by
    intro m
    unfold rot
    refine (HasDerivAt.fun_sum fun m' _ => ?_).deriv
    exact ((((hf (lmIndex ell m' w.ellMin).toNat).1.differentiable (by norm_num)) w.t[k]).hasDerivAt).mul_const _
  simp only [hd]
  have hp := Verif.Rotation.rot_power ell (star R) (Verif.Rotation.unit_star hR) fun m => deriv (f (lmIndex ell m w.ellMin).toNat) w.t[k]
  unfold Spec.Rotation.power at hp
  rw [hp]
  refine Finset.sum_congr rfl fun m hm => ?_
  obtain ⟨m1, m2⟩ := Finset.mem_Icc.1 hm
  congr 1
  have hi := Verif.Flux.lmIndex_nonneg h0 l1 m1
  have hlt : lmIndex ell m w.ellMin < w.nCols := by
    rw [hn]
    unfold lmIndex
    nlinarith
  have hx := d3 k (lmIndex ell m w.ellMin).toNat hk (by omega)
  rw [List.getD_eq_getElem _ _ hk] at hx
  change item d k _ = deriv _ _ at hx
  beta_reduce
  rw [← hx]
  unfold Spec.Flux.modesOf Spec.Slicing.modeAt item
  change ((d[k]?).bind fun r => r[(lmIndex ell m w.ellMin).toNat]?).getD 0 = _
  rw [List.getElem?_eq_getElem (by omega : k < d.length), List.getD_eq_getElem _ _ (by omega : k < d.length)]
  rfl

/-! ## The energy flux in a rotating frame -/

/-- A binary in its corotating frame: the data do not change, the frame turns about the `z` axis. -/
noncomputable def corotating (omega : ℝ) : WM ℝ (Quaternion ℝ) ℂ where
  t := [0, 1, 2, 3]
  frame := [0, 1, 2, 3].map fun s => Align.expZ (omega * s / 2)
  data := List.replicate 4 [0, 0, 0, 0, 1]
  nCols := 5
  ellMin := 2
  ellMax := 2

theorem corotating_proper (omega : ℝ) : Spec.WaveSpline.Proper (corotating omega) where
  two := by show 2 ≤ 4; norm_num
  inc := by
    show List.Pairwise (· < ·) [(0 : ℝ), 1, 2, 3]
    simp
    norm_num
  rows := rfl
  cols r hr := by
    rw [(List.mem_replicate.1 hr).2]
    rfl
  frame := .inr rfl

/-- The hypotheses of `constant_frame_flux` hold for it. -/
example (omega : ℝ) : Spec.WaveSpline.Proper (corotating omega) ∧ 0 ≤ (corotating omega).ellMin ∧ (corotating omega).ellMin - 1 ≤ (corotating omega).ellMax ∧
    ((corotating omega).nCols : Int) = ((corotating omega).ellMax + 1) ^ 2 - (corotating omega).ellMin ^ 2 :=
  ⟨corotating_proper omega, by simp [corotating], by simp [corotating], by simp [corotating]⟩

theorem star_expZ (x : ℝ) : star (Align.expZ x) = Align.expZ (-x) := by
  refine Quaternion.ext _ _ ?_ ?_ ?_ ?_
  · rw [Quaternion.re_star]
    change Real.cos x = Real.cos (-x)
    rw [Real.cos_neg]
  · rw [Quaternion.imI_star]
    change -(0 : ℝ) = 0
    exact neg_zero
  · rw [Quaternion.imJ_star]
    change -(0 : ℝ) = 0
    exact neg_zero
  · rw [Quaternion.imK_star]
    change -Real.sin x = Real.sin (-x)
    rw [Real.sin_neg]

/-- **C100** (refutation): `energy_flux` takes the derivative of the data with respect to the frame of the waveform. For a strain in a corotating frame it is 0, although the field, which turns with the angular velocity `omega`, radiates. -/
theorem rotating_flux_lost (hg : Spec.WaveSpline.Good ext) (omega : ℝ) (h0 : omega ≠ 0) :
    energyFlux ext Weights.h (corotating omega) = .ok [0, 0, 0, 0] ∧
    ∀ s, trueFlux 2 2 (fun u => Align.expZ (omega * u / 2)) (fun _ _ m => if m = 2 then 1 else 0) s = 4 * omega ^ 2 / (16 * Real.pi) ∧ 0 < 4 * omega ^ 2 / (16 * Real.pi) := by
  constructor
  · have hfit : ∀ j, j < 5 → ∀ s, ext.fit [0, 1, 2, 3] (column (List.replicate 4 [0, 0, 0, 0, 1]) j) 1 s = 0 := by
      intro j hj s
      have hc : ∃ c : ℂ, column (List.replicate 4 [0, 0, 0, 0, 1]) j = ([0, 1, 2, 3] : List ℝ).map fun x : ℝ => (Polynomial.C c).eval (x : ℂ) := by
        refine ⟨([0, 0, 0, 0, 1] : List ℂ).getD j 0, ?_⟩
        simp [column]
      obtain ⟨c, hc⟩ := hc
      have hp := corotating_proper omega
      obtain ⟨f, -, f2⟩ := hg.curve [0, 1, 2, 3] (column (List.replicate 4 [0, 0, 0, 0, 1]) j) hp.two hp.inc rfl
      have hf : f = fun _ : ℝ => c := by
        funext x
        have e := hg.cubic [0, 1, 2, 3] (Polynomial.C c) hp.two hp.inc (by simp) x
        rw [← hc, f2 0 (by norm_num) (by norm_num), Polynomial.eval_C] at e
        exact e
      rw [f2 1 (by norm_num) (by norm_num), hf]
      show deriv _ _ = _
      simp
    have hd : dataDot ext (corotating omega) = .ok (List.replicate 4 (List.replicate 5 0)) := by
      unfold dataDot
      rw [spline_ok (corotating_proper omega)]
      congr 1
      show ([0, 1, 2, 3] : List ℝ).map (fun s => (List.range 5).map fun j => ext.fit [0, 1, 2, 3] (column (List.replicate 4 [0, 0, 0, 0, 1]) j) 1 s) = _
      have e : ∀ s : ℝ, ((List.range 5).map fun j => ext.fit [0, 1, 2, 3] (column (List.replicate 4 [0, 0, 0, 0, 1]) j) 1 s) = List.replicate 5 0 := by
        intro s
        rw [List.map_congr_left (g := fun _ => (0 : ℂ)) fun j hj => hfit j (List.mem_range.1 hj) s]
        rfl
      simp only [e]
      rfl
    unfold energyFlux
    rw [if_pos rfl, hd, ok_bind]
    show Except.ok ((List.replicate 4 (List.replicate 5 (0 : ℂ))).map Flux.energyAt) = _
    simp [Flux.energyAt, List.replicate]
  · intro s
    refine ⟨?_, by have := Real.pi_pos; positivity⟩
    unfold trueFlux
    have e : ∀ m ∈ Finset.Icc (-2 : Int) 2, Complex.normSq (deriv (fun u : ℝ => rot 2 (star (Align.expZ (omega * u / 2))) (fun m => if m = 2 then 1 else 0) m) s) = if m = 2 then 4 * omega ^ 2 else 0 := by
      intro m hm
      rw [Finset.mem_Icc] at hm
      have e1 : (fun u : ℝ => rot 2 (star (Align.expZ (omega * u / 2))) (fun m => if m = 2 then 1 else 0) m) = fun u : ℝ => (if m = 2 then (1 : ℂ) else 0) * Complex.exp (((-(m * omega) : ℝ) * Complex.I) * u) := by
        funext u
        have es : star (Align.expZ (omega * u / 2)) = Align.expZ (-(omega * u / 2)) := by
          exact star_expZ _
        rw [es, Verif.Lemmas.Align.rot_expZ _ 2 _ m hm]
        congr 2
        push_cast
        ring
      rw [e1]
      have hderiv : HasDerivAt (fun u : ℝ => (if m = 2 then (1 : ℂ) else 0) * Complex.exp (((-(m * omega) : ℝ) * Complex.I) * u))
          ((if m = 2 then (1 : ℂ) else 0) * (Complex.exp (((-(m * omega) : ℝ) * Complex.I) * s) * ((-(m * omega) : ℝ) * Complex.I))) s := by
        have h1 : HasDerivAt (fun z : ℂ => ((-(m * omega) : ℝ) * Complex.I) * z) ((-(m * omega) : ℝ) * Complex.I) (s : ℂ) := by
          simpa using (hasDerivAt_id (s : ℂ)).const_mul ((-(m * omega) : ℝ) * Complex.I)
        exact (h1.cexp.comp_ofReal).const_mul _
      rw [hderiv.deriv]
      split
      · rename_i h
        subst h
        have e2 : ((-((2 : Int) * omega) : ℝ) * Complex.I) * (s : ℂ) = ((-(2 * omega) * s : ℝ) : ℂ) * Complex.I := by push_cast; ring
        rw [one_mul, Complex.normSq_mul, Complex.normSq_mul, Complex.normSq_I, Complex.normSq_ofReal, e2, Complex.normSq_eq_norm_sq (Complex.exp _), Complex.norm_exp_ofReal_mul_I]
        push_cast
        ring
      · simp
    rw [Finset.Icc_self, Finset.sum_singleton, Finset.sum_congr rfl e]
    simp

/-! ## The assumptions can be met -/

theorem rotor_same {n n' : Fin 3 → ℝ} {x x' : ℝ} (hx : |x| < Real.pi) (hx' : |x'| < Real.pi) (h : expRotor n x = expRotor n' x') : ∀ i, x * n i = x' * n' i ∧ ∀ τ, Real.sin (τ * x) * n i = Real.sin (τ * x') * n' i := by
  have h0 : Real.cos x = Real.cos x' := congrArg QuaternionAlgebra.re h
  have hv : ∀ i, Real.sin x * n i = Real.sin x' * n' i := by
    intro i
    fin_cases i
    · exact congrArg QuaternionAlgebra.imI h
    · exact congrArg QuaternionAlgebra.imJ h
    · exact congrArg QuaternionAlgebra.imK h
  have habs : |x| = |x'| := by
    refine Real.injOn_cos ⟨abs_nonneg _, hx.le⟩ ⟨abs_nonneg _, hx'.le⟩ ?_
    rw [Real.cos_abs, Real.cos_abs, h0]
  by_cases hz : x = 0
  · have hz' : x' = 0 := by rwa [hz, abs_zero, eq_comm, abs_eq_zero] at habs
    intro i
    simp [hz, hz']
  · have hs : Real.sin x ≠ 0 := by
      intro e
      have := (Real.sin_eq_zero_iff_of_lt_of_lt (abs_lt.1 hx).1 (abs_lt.1 hx).2).1 e
      exact hz this
    intro i
    rcases abs_eq_abs.1 habs with e | e
    · have : n i = n' i := by
        have := hv i
        rw [← e] at this
        exact mul_left_cancel₀ hs this
      rw [← e, this]
      simp
    · have : n i = -n' i := by
        have h' := hv i
        rw [show x' = -x by rw [e, neg_neg], Real.sin_neg] at h'
        exact mul_left_cancel₀ hs (by rw [h']; ring)
      rw [this, e]
      refine ⟨by ring, fun τ => ?_⟩
      rw [mul_neg τ, Real.sin_neg]
      ring

theorem rotor_cos {n n' : Fin 3 → ℝ} {x x' : ℝ} (hx : |x| < Real.pi) (hx' : |x'| < Real.pi) (h : expRotor n x = expRotor n' x') (τ : ℝ) : Real.cos (τ * x) = Real.cos (τ * x') := by
  have h0 : Real.cos x = Real.cos x' := congrArg QuaternionAlgebra.re h
  have habs : |x| = |x'| := by
    refine Real.injOn_cos ⟨abs_nonneg _, hx.le⟩ ⟨abs_nonneg _, hx'.le⟩ ?_
    rw [Real.cos_abs, Real.cos_abs, h0]
  rcases abs_eq_abs.1 habs with e | e
  · rw [e]
  · rw [e, mul_neg, Real.cos_neg]

open Classical in
/-- Polynomials for splines, and logarithm and arc as they have to be. -/
noncomputable def sampleExt : Ext where
  fit t y n s := applied (t.getD 0 0) (fun x : ℝ => (Verif.Props.TimeSeries.lagrange t y).eval (x : ℂ)) n s
  log q := if h : ∃ p : (Fin 3 → ℝ) × ℝ, Unit3 p.1 ∧ |p.2| < Real.pi ∧ q = expRotor p.1 p.2 then pureQuat h.choose.1 h.choose.2 else 0
  exp _ := 1
  slerp a b τ := if h : ∃ p : (Fin 3 → ℝ) × ℝ, Unit3 p.1 ∧ |p.2| < Real.pi / 2 ∧ b = a * expRotor p.1 p.2 ∧ UnitRotor a then a * expRotor h.choose.1 (τ * h.choose.2) else a

theorem rotor_zero (n : Fin 3 → ℝ) : expRotor n 0 = 1 := by
  refine Quaternion.ext _ _ ?_ ?_ ?_ ?_
  · exact Real.cos_zero
  · show Real.sin 0 * n 0 = 0; simp
  · show Real.sin 0 * n 1 = 0; simp
  · show Real.sin 0 * n 2 = 0; simp

theorem unit_cancel {a b c : Quaternion ℝ} (ha : UnitRotor a) (h : a * b = a * c) : b = c := by
  have := congrArg (star a * ·) h
  simpa only [← mul_assoc, unit_star ha, one_mul] using this

theorem sample_good : Spec.WaveSpline.Good sampleExt := by
  have key : ∀ a n x τ, UnitRotor a → Unit3 n → |x| < Real.pi / 2 → sampleExt.slerp a (a * expRotor n x) τ = a * expRotor n (τ * x) := by
    intro a n x τ ha hn hx
    have hex : ∃ p : (Fin 3 → ℝ) × ℝ, Unit3 p.1 ∧ |p.2| < Real.pi / 2 ∧ a * expRotor n x = a * expRotor p.1 p.2 ∧ UnitRotor a := ⟨(n, x), hn, hx, rfl, ha⟩
    have e : sampleExt.slerp a (a * expRotor n x) τ = a * expRotor hex.choose.1 (τ * hex.choose.2) := dif_pos hex
    rw [e]
    obtain ⟨h1, h2, h3, -⟩ := hex.choose_spec
    generalize hex.choose = p at *
    have hp := Real.pi_pos
    have h4 := unit_cancel ha h3
    have h5 := rotor_same (by linarith) (by linarith) h4
    have h6 := rotor_cos (by linarith) (by linarith) h4 τ
    congr 1
    refine Quaternion.ext _ _ ?_ ?_ ?_ ?_
    · exact h6.symm
    · exact ((h5 0).2 τ).symm
    · exact ((h5 1).2 τ).symm
    · exact ((h5 2).2 τ).symm
  constructor
  · intro t y h1 h2 h3
    obtain ⟨f, f1, f2⟩ := Verif.Props.TimeSeries.sample_good.spline t y h1 h2 h3
    exact ⟨f, f1, f2⟩
  · intro t p h1 h2 hp s
    show (Verif.Props.TimeSeries.lagrange t _).eval (s : ℂ) = _
    congr 1
    symm
    unfold Verif.Props.TimeSeries.lagrange
    have hv : Set.InjOn (fun i : Nat => ((t.getD i 0 : ℝ) : ℂ)) (Finset.range t.length) := by
      intro a ha b hb hab
      simp only [Finset.coe_range, Set.mem_Iio] at ha hb
      have hab' : t.getD a 0 = t.getD b 0 := Complex.ofReal_injective hab
      rw [List.getD_eq_getElem _ _ ha, List.getD_eq_getElem _ _ hb] at hab'
      have := List.pairwise_iff_getElem.mp h2
      rcases lt_trichotomy a b with h | h | h
      · exact absurd hab' (this a b ha hb h).ne
      · exact h
      · exact absurd hab' (this b a hb ha h).ne'
    refine Lagrange.eq_interpolate_of_eval_eq _ hv ?_ fun i hi => ?_
    · rw [Finset.card_range]
      refine lt_of_le_of_lt Polynomial.degree_le_natDegree ?_
      exact_mod_cast lt_of_lt_of_le hp (min_le_right _ _)
    · have hi' := Finset.mem_range.1 hi
      rw [List.getD_eq_getElem _ _ hi', List.getD_eq_getElem _ _ (by simpa using hi'), List.getElem_map]
  · intro n a hn ha
    have hex : ∃ p : (Fin 3 → ℝ) × ℝ, Unit3 p.1 ∧ |p.2| < Real.pi ∧ expRotor n a = expRotor p.1 p.2 := ⟨(n, a), hn, ha, rfl⟩
    have e : sampleExt.log (expRotor n a) = pureQuat hex.choose.1 hex.choose.2 := dif_pos hex
    rw [e]
    obtain ⟨h1, h2, h3⟩ := hex.choose_spec
    generalize hex.choose = p at *
    have h5 := rotor_same ha h2 h3
    refine Quaternion.ext _ _ rfl ?_ ?_ ?_
    · exact (h5 0).1.symm
    · exact (h5 1).1.symm
    · exact (h5 2).1.symm
  · rfl
  · intro a b
    by_cases h : ∃ p : (Fin 3 → ℝ) × ℝ, Unit3 p.1 ∧ |p.2| < Real.pi / 2 ∧ b = a * expRotor p.1 p.2 ∧ UnitRotor a
    · refine (dif_pos h).trans ?_
      rw [zero_mul, rotor_zero, mul_one]
    · exact dif_neg h
  · intro a τ
    by_cases ha : UnitRotor a
    · have := key a ![1, 0, 0] 0 τ ha (by simp [Unit3]) (by simpa using Real.pi_pos)
      rw [rotor_zero, mul_zero, rotor_zero, mul_one] at this
      exact this
    · exact dif_neg fun ⟨_, _, _, _, h⟩ => ha h
  · exact key

/-- A frame that turns by a quarter between the times. -/
example : ∃ r, interpolate sampleExt (corotating (Real.pi / 2)) [1 / 2] = .ok r ∧ r.frame = [Align.expZ (Real.pi / 8)] := by
  have e : ∀ s : ℝ, Align.expZ (Real.pi / 2 * s / 2) = 1 * expRotor ![0, 0, 1] (Real.pi / 2 * s / 2) := by
    intro s
    rw [one_mul]
    refine Quaternion.ext _ _ rfl ?_ ?_ ?_
    · exact (mul_zero _).symm
    · exact (mul_zero _).symm
    · exact (mul_one _).symm
  obtain ⟨r, h1, h2⟩ := uniform_rotation sample_good (corotating_proper (Real.pi / 2)) (Q := 1) (by unfold UnitRotor; simp) (n := ![0, 0, 1]) (by simp [Unit3]) (Real.pi / 2) (by
      show ([0, 1, 2, 3] : List ℝ).map (fun s => Align.expZ (Real.pi / 2 * s / 2)) = _
      exact List.map_congr_left fun s _ => e s) (by
      intro i hi
      have hi' : i + 1 < 4 := hi
      have hd : (corotating (Real.pi / 2)).t.getD (i + 1) 0 - (corotating (Real.pi / 2)).t.getD i 0 = 1 := by
        show ([0, 1, 2, 3] : List ℝ).getD (i + 1) 0 - ([0, 1, 2, 3] : List ℝ).getD i 0 = 1
        have hi3 : i < 3 := by omega
        interval_cases i <;> norm_num
      rw [hd, mul_one, abs_of_pos (by positivity)]
      linarith [Real.pi_pos]) [1 / 2] (by
      intro s hs
      rw [List.mem_singleton.1 hs]
      show (0 : ℝ) ≤ 1 / 2 ∧ (1 / 2 : ℝ) ≤ 3
      norm_num)
  refine ⟨r, h1, ?_⟩
  rw [h2, List.map_singleton, ← e]
  congr 2
  ring

end Verif.Props.WaveSpline
