import Verif.Spec.Validity
import Verif.Props.Modes
import Mathlib.Tactic.Ring
import Mathlib.Algebra.Order.Ring.Rat

namespace Verif.Validity
open Verif.Spec.Validity

theorem test_ok_zero (a : Bool) (e : Nat) (v : Bool) : test a e v = .ok 0 ↔ v = true ∧ e = 0 := by
  unfold test
  cases v <;> cases a <;> simp

theorem test_mono (a : Bool) (e e' : Nat) (v : Bool) (h : test a e v = .ok e') : e ≤ e' := by
  unfold test at h
  cases v <;> cases a <;> simp at h <;> omega

theorem runStmts_mono {σ : Type} (al a : Bool) (l : List (Stmt σ)) (w w' : σ) (e e' : Nat)
    (h : runStmts al a l w e = .ok (w', e')) : e ≤ e' := by
  induction l generalizing w e with
  | nil => simp [runStmts] at h; omega
  | cons s l ih =>
    cases s with
    | check c =>
      simp only [runStmts] at h
      cases hc : c w with
      | error x => rw [hc] at h; cases h
      | ok v =>
        rw [hc, ok_bind] at h
        cases ht : test a e v with
        | error x => rw [ht] at h; cases h
        | ok e1 =>
          rw [ht, ok_bind] at h
          exact Nat.le_trans (test_mono _ _ _ _ ht) (ih _ _ h)
    | alter f =>
      simp only [runStmts] at h
      split at h
      · cases hc : f w with
        | error x => rw [hc] at h; cases h
        | ok v => rw [hc, ok_bind] at h; exact ih _ _ h
      · exact ih _ _ h

theorem run_nil {σ : Type} (al a : Bool) (w w' : σ) :
    runStmts al a [] w 0 = .ok (w', 0) ↔ w = w' := by
  simp [runStmts]

theorem run_check {σ : Type} (al a : Bool) (c : σ → Py Bool) (l : List (Stmt σ)) (w w' : σ) :
    runStmts al a (.check c :: l) w 0 = .ok (w', 0) ↔
      c w = .ok true ∧ runStmts al a l w 0 = .ok (w', 0) := by
  simp only [runStmts]
  cases hc : c w with
  | error x => simp [error_bind]
  | ok v =>
    rw [ok_bind]
    cases ht : test a 0 v with
    | error x =>
      have : v ≠ true := by rintro rfl; simp [test] at ht
      simp [error_bind, this]
    | ok e1 =>
      rw [ok_bind]
      constructor
      · intro h
        have := runStmts_mono _ _ _ _ _ _ _ h
        have e0 : e1 = 0 := by omega
        subst e0
        exact ⟨by rw [(test_ok_zero a 0 v).mp ht |>.1], h⟩
      · rintro ⟨h1, h⟩
        simp only [Except.ok.injEq] at h1
        subst h1
        simp [test] at ht
        subst ht
        exact h

theorem run_alter_true {σ : Type} (a : Bool) (f : σ → Py σ) (l : List (Stmt σ)) (w w' : σ) :
    runStmts true a (.alter f :: l) w 0 = .ok (w', 0) ↔
      ∃ w1, f w = .ok w1 ∧ runStmts true a l w1 0 = .ok (w', 0) := by
  simp only [runStmts, if_true]
  cases hc : f w with
  | error x => simp [error_bind]
  | ok v => simp [ok_bind]

theorem run_alter_false {σ : Type} (a : Bool) (f : σ → Py σ) (l : List (Stmt σ)) (w : σ) (e : Nat) :
    runStmts false a (.alter f :: l) w e = runStmts false a l w e := by
  simp [runStmts]

/-- With assertions, no error is ever merely counted. -/
theorem run_assert {σ : Type} (al : Bool) (l : List (Stmt σ)) (w w' : σ) (e : Nat)
    (h : runStmts al true l w 0 = .ok (w', e)) : e = 0 := by
  have key : ∀ (l : List (Stmt σ)) (w : σ) (k : Nat), runStmts al true l w k = .ok (w', e) → e = k := by
    intro l
    induction l with
    | nil => intro w k h; simp [runStmts] at h; omega
    | cons s l ih =>
      intro w k h
      cases s with
      | check c =>
        simp only [runStmts] at h
        cases hc : c w with
        | error x => rw [hc] at h; cases h
        | ok v =>
          rw [hc, ok_bind] at h
          cases v with
          | true => exact ih _ _ h
          | false => cases h
      | alter f =>
        simp only [runStmts] at h
        split at h
        · cases hc : f w with
          | error x => rw [hc] at h; cases h
          | ok v => rw [hc, ok_bind] at h; exact ih _ _ h
        · exact ih _ _ h
  exact key l w 0 h

theorem allFinite_iff (a : Arr) : a.allFinite = true ↔ Finite a := by
  unfold Arr.allFinite Finite
  rw [List.all_eq_true]
  constructor
  · intro h x hx
    have := h x hx
    cases x with
    | fin q => exact ⟨q, rfl⟩
    | _ => simp [Fl.isFinite] at this
  · intro h x hx
    obtain ⟨q, rfl⟩ := h x hx
    rfl

theorem finite_map {a : Arr} (h : Finite a) : ∃ q : List Rat, a.comps = q.map .fin := by
  unfold Finite at h
  generalize a.comps = l at h
  induction l with
  | nil => exact ⟨[], rfl⟩
  | cons x l ih =>
    obtain ⟨q, rfl⟩ := h x (by simp)
    obtain ⟨qs, hq⟩ := ih (fun y hy => h y (by simp [hy]))
    exact ⟨q :: qs, by rw [hq]; rfl⟩

theorem adjacent_iff (q : List Rat) :
    adjacent Fl.diffPos (q.map .fin) = true ↔ q.Pairwise (· < ·) := by
  induction q with
  | nil => simp [adjacent]
  | cons a l ih =>
    cases l with
    | nil => simp [adjacent]
    | cons b l =>
      simp only [List.map_cons, adjacent, Bool.and_eq_true] at ih ⊢
      rw [ih]
      simp only [Fl.diffPos, decide_eq_true_eq]
      constructor
      · rintro ⟨h1, h2⟩
        refine List.pairwise_cons.mpr ⟨?_, h2⟩
        intro x hx
        rcases List.mem_cons.mp hx with rfl | hx
        · exact h1
        · exact lt_trans h1 ((List.pairwise_cons.mp h2).1 x hx)
      · intro h
        exact ⟨(List.pairwise_cons.mp h).1 b (by simp), (List.pairwise_cons.mp h).2⟩

theorem increasing_iff {t : Arr} (hw : Arr.WF t) (hd : t.dtype = .float) (hf : Finite t) :
    (t.size ≤ 1 ∨ t.increasing = true) ↔ ∃ q : List Rat, t.comps = q.map .fin ∧ q.Pairwise (· < ·) := by
  obtain ⟨q, hq⟩ := finite_map hf
  have hlen : t.comps.length = t.size := by
    rw [show t.comps.length = t.size * t.dtype.width from hw, hd]; simp [DType.width]
  have huniq : ∀ q' : List Rat, t.comps = q'.map .fin → q' = q := by
    intro q' hq'
    rw [hq] at hq'
    exact (List.map_injective_iff.mpr (fun a b h => by cases h; rfl) hq').symm
  constructor
  · intro h
    refine ⟨q, hq, ?_⟩
    rcases h with h | h
    · have : q.length ≤ 1 := by rw [hq, List.length_map] at hlen; omega
      match q, this with
      | [], _ => exact List.Pairwise.nil
      | [_], _ => exact List.pairwise_singleton _ _
    · unfold Arr.increasing at h
      rw [hq] at h
      exact (adjacent_iff q).mp h
  · rintro ⟨q', h1, h2⟩
    right
    unfold Arr.increasing
    rw [h1]
    exact (adjacent_iff q').mpr h2

theorem inRange_int (n : Nat) (z : Int) : Num.inRange n (.int z) = true ↔ 0 ≤ z ∧ z < n := by
  simp only [Num.inRange, List.any_eq_true, List.mem_range, beq_iff_eq]
  constructor
  · rintro ⟨k, hk, rfl⟩; omega
  · rintro ⟨h1, h2⟩; exact ⟨z.toNat, by omega, by omega⟩

theorem num_iff (n : Nat) (x : Num) :
    (x.isIntegral = true ∧ x.inRange n = true) ↔ ∃ z : Int, x = .int z ∧ 0 ≤ z ∧ z < n := by
  cases x with
  | int z =>
    rw [inRange_int]
    simp [Num.isIntegral]
  | float q => simp [Num.isIntegral]
  | other => simp [Num.isIntegral]

theorem hist_iff (h : Hist) :
    (h.isList = true ∧ h.firstIsStr = .ok true) ↔ ∃ s rest, h = .list (some s :: rest) := by
  cases h with
  | list l =>
    cases l with
    | nil => simp [Hist.isList, Hist.firstIsStr]
    | cons x l =>
      cases x <;> simp [Hist.isList, Hist.firstIsStr]
  | _ => simp [Hist.isList]

theorem ndim_one (a : Arr) : a.ndim = 1 ↔ ∃ n, a.shape = [n] := by
  unfold Arr.ndim
  exact List.length_eq_one_iff

theorem dim_zero_eq (a : Arr) (n : Nat) : a.dim 0 = .ok n ↔ ∃ rest, a.shape = n :: rest := by
  unfold Arr.dim
  cases h : a.shape with
  | nil => simp
  | cons x l => simp

/-- The tests of `ensure_validity` on given arrays. -/
theorem checks_iff (w : WB) (t f d : Arr) (ht : w.t = .arr t) (hf : w.frame = .arr f)
    (hd : w.data = .arr d) (hwf : Arr.WF t) :
    Valid w t f d ↔ t.dtype = .float ∧ (t.size = 0 ∨ t.ndim = 1) ∧ (t.size ≤ 1 ∨ t.increasing = true) ∧
      t.allFinite = true ∧ f.dtype = .quaternion ∧ (f.size ≤ 1 ∨ f.size = t.size) ∧ f.allFinite = true ∧
      (∃ n, d.dim 0 = .ok n ∧ t.dim 0 = .ok n) ∧ d.allFinite = true ∧ w.history.isList = true ∧
      w.history.firstIsStr = .ok true ∧ w.frameType.isIntegral = true ∧ w.frameType.inRange 5 = true ∧
      w.dataType.isIntegral = true ∧ w.dataType.inRange 11 = true ∧ w.rScaled.isSome = true ∧
      w.mScaled.isSome = true := by
  simp only [allFinite_iff, Option.isSome_iff_exists]
  constructor
  · intro h
    have hi := (increasing_iff hwf h.t_dtype h.t_finite).mpr h.t_increasing
    have hh := (hist_iff w.history).mpr h.history
    have hft := (num_iff 5 w.frameType).mpr h.frameType
    have hdt := (num_iff 11 w.dataType).mpr h.dataType
    obtain ⟨n, r1, r2, e1, e2⟩ := h.d_shape
    refine ⟨h.t_dtype, ?_, hi, h.t_finite, h.f_dtype, ?_, h.f_finite, ⟨n, ?_, ?_⟩, h.d_finite, hh.1, hh.2,
      hft.1, hft.2, hdt.1, hdt.2, h.rScaled, h.mScaled⟩
    · rw [ndim_one]; exact h.t_shape
    · have := h.f_size; omega
    · exact (dim_zero_eq d n).mpr ⟨_, e1⟩
    · exact (dim_zero_eq t n).mpr ⟨_, e2⟩
  · rintro ⟨h1, h2, h3, h4, h5, h6, h7, ⟨n, h8, h8'⟩, h9, h10, h11, h12, h13, h14, h15, h16, h17⟩
    obtain ⟨r1, e1⟩ := (dim_zero_eq d n).mp h8
    obtain ⟨r2, e2⟩ := (dim_zero_eq t n).mp h8'
    exact { t_eq := ht, frame_eq := hf, data_eq := hd, t_dtype := h1, t_finite := h4,
            t_shape := by rw [← ndim_one]; exact h2,
            t_increasing := (increasing_iff hwf h1 h4).mp h3, f_dtype := h5, f_finite := h7,
            f_size := by omega, d_finite := h9, d_shape := ⟨n, r1, r2, e1, e2⟩,
            history := (hist_iff _).mp ⟨h10, h11⟩, frameType := (num_iff 5 _).mp ⟨h12, h13⟩,
            dataType := (num_iff 11 _).mp ⟨h14, h15⟩, rScaled := h16, mScaled := h17 }

theorem get_arr (a : Arr) : (Attr.arr a).get = .ok a := rfl
theorem isArr_iff (x : Attr) : x.isArr = true ↔ ∃ a, x = .arr a := by
  cases x <;> simp [Attr.isArr]

theorem dim_eq (d t : Arr) :
    (do let n ← d.dim 0; let k ← t.dim 0; pure (n == k) : Py Bool) = .ok true ↔
      ∃ n, d.dim 0 = .ok n ∧ t.dim 0 = .ok n := by
  cases hd : d.dim 0 with
  | error e => simp [error_bind]
  | ok n =>
    cases ht : t.dim 0 with
    | error e => simp [ok_bind]
    | ok k => simp [ok_bind, pure_eq_ok]; exact eq_comm

/-- All the tests, without alterations. -/
theorem base_run_false (conv : Arr → Option Attr) (a : Bool) (w w' : WB)
    (hwf : ∀ t, w.t = .arr t → Arr.WF t) :
    runStmts false a (baseStmts conv) w 0 = .ok (w', 0) ↔ w = w' ∧ ∃ t f d, Valid w t f d := by
  simp only [baseStmts, run_check, run_alter_false, run_nil]
  constructor
  · rintro ⟨h1, h2⟩
    simp only [Except.ok.injEq] at h1
    obtain ⟨t, ht⟩ := (isArr_iff _).mp h1
    rw [ht] at h2
    simp only [get_arr, ok_bind, pure_eq_ok, Except.ok.injEq, beq_iff_eq, Bool.or_eq_true,
      decide_eq_true_eq] at h2
    obtain ⟨h2, h3, h4, h5, h6, h7⟩ := h2
    obtain ⟨f, hf⟩ := (isArr_iff _).mp h6
    rw [hf] at h7
    simp only [get_arr, ok_bind, Except.ok.injEq, beq_iff_eq, Bool.or_eq_true, decide_eq_true_eq] at h7
    obtain ⟨h7, h8, h9, h10, h11⟩ := h7
    obtain ⟨d, hd⟩ := (isArr_iff _).mp h10
    rw [hd] at h11
    simp only [get_arr, ok_bind, Except.ok.injEq, decide_eq_true_eq] at h11
    obtain ⟨h11, h12, h13, h14, h15, h16, h17, h18, h19, h20, h21, h22⟩ := h11
    refine ⟨h22, t, f, d, (checks_iff w t f d ht hf hd (hwf t ht)).mpr ?_⟩
    exact ⟨h2, h3, h4, h5, h7, h8, h9, (dim_eq d t).mp h12, h13, h14, h15, h16, h17, h18, h19, h20, h21⟩
  · rintro ⟨rfl, t, f, d, hv⟩
    have hc := (checks_iff w t f d hv.t_eq hv.frame_eq hv.data_eq (hwf t hv.t_eq)).mp hv
    obtain ⟨h2, h3, h4, h5, h7, h8, h9, h12, h13, h14, h15, h16, h17, h18, h19, h20, h21⟩ := hc
    have hdim := (dim_eq d t).mpr h12
    simp only [hv.t_eq, hv.frame_eq, hv.data_eq, get_arr, ok_bind, pure_eq_ok, Except.ok.injEq, beq_iff_eq,
      Bool.or_eq_true, decide_eq_true_eq, Attr.isArr]
    refine ⟨trivial, h2, h3, h4, h5, trivial, h7, h8, h9, trivial, ?_, hdim, h13, h14, h15, h16, h17, h18,
      h19, h20, h21, trivial⟩
    obtain ⟨n, r, _, e, _⟩ := hv.d_shape
    simp [Arr.ndim, e]

end Verif.Validity

namespace Verif.Validity
open Verif.Spec.Validity

theorem alterT_spec {w w1 : WB} {t : Arr} (ht : w.t = .arr t) (h : alterT w = .ok w1) :
    ∃ t', w1 = { w with t := .arr t' } ∧ t'.dtype = t.dtype ∧ (Arr.WF t → Arr.WF t') := by
  unfold alterT at h
  rw [ht, get_arr, ok_bind] at h
  split at h
  · rename_i n hs
    simp only [Except.ok.injEq] at h
    refine ⟨{ t with shape := [n] }, h.symm, rfl, ?_⟩
    intro hw
    unfold Arr.WF Arr.size at *
    rw [hs] at hw
    simpa using hw
  · simp only [Except.ok.injEq] at h
    subst h
    exact ⟨t, by rw [← ht], rfl, id⟩

theorem alterFrameNone_spec {w w1 : WB} (h : alterFrameNone w = .ok w1) :
    ∃ f, w1 = { w with frame := f } := by
  unfold alterFrameNone at h
  split at h <;> simp only [Except.ok.injEq] at h
  · exact ⟨_, h.symm⟩
  · exact ⟨w.frame, h.symm⟩

theorem alterFrameFloat_spec {conv : Arr → Option Attr} {w w1 : WB} (h : alterFrameFloat conv w = .ok w1) :
    ∃ f, w1 = { w with frame := f } := by
  unfold alterFrameFloat at h
  cases hg : w.frame.get with
  | error e => rw [hg] at h; cases h
  | ok f =>
    rw [hg, ok_bind] at h
    split at h
    · split at h <;> simp only [Except.ok.injEq] at h
      · exact ⟨_, h.symm⟩
      · exact ⟨w.frame, h.symm⟩
    · simp only [Except.ok.injEq] at h
      exact ⟨w.frame, h.symm⟩

theorem alterHistEmpty_spec {w w1 : WB} (h : alterHistEmpty w = .ok w1) :
    ∃ x, w1 = { w with history := x } := by
  unfold alterHistEmpty at h
  split at h <;> simp only [Except.ok.injEq] at h
  · exact ⟨_, h.symm⟩
  · exact ⟨w.history, h.symm⟩

theorem alterHistStr_spec {w w1 : WB} (h : alterHistStr w = .ok w1) :
    ∃ x, w1 = { w with history := x } := by
  unfold alterHistStr at h
  split at h <;> simp only [Except.ok.injEq] at h
  · exact ⟨_, h.symm⟩
  · exact ⟨w.history, h.symm⟩

/-- If `ensure_validity(alter=True)` finds no error, the altered object passes every test. -/
theorem base_run_true (conv : Arr → Option Attr) (a : Bool) (w w' : WB)
    (hwf : ∀ t, w.t = .arr t → Arr.WF t)
    (h : runStmts true a (baseStmts conv) w 0 = .ok (w', 0)) : ∃ t f d, Valid w' t f d := by
  simp only [baseStmts, run_check, run_alter_true, run_nil] at h
  obtain ⟨h1, h2, w1, a1, h⟩ := h
  simp only [Except.ok.injEq] at h1
  obtain ⟨t0, ht0⟩ := (isArr_iff _).mp h1
  obtain ⟨t, rfl, hdt, hwf'⟩ := alterT_spec ht0 a1
  rw [ht0] at h2
  simp only [get_arr, ok_bind, pure_eq_ok, Except.ok.injEq, beq_iff_eq] at h2
  obtain ⟨h3, h4, h5, w2, a2, h6, w3, a3, h⟩ := h
  obtain ⟨f2, rfl⟩ := alterFrameNone_spec a2
  obtain ⟨f3, rfl⟩ := alterFrameFloat_spec a3
  obtain ⟨h7, h8, h9, h10, h11, h12, h13, w4, a4, w5, a5, h⟩ := h
  obtain ⟨x4, rfl⟩ := alterHistEmpty_spec a4
  obtain ⟨x5, rfl⟩ := alterHistStr_spec a5
  obtain ⟨h14, h15, h16, h17, h18, h19, h20, h21, h22⟩ := h
  subst h22
  obtain ⟨f, rfl⟩ : ∃ f, f3 = .arr f := by
    cases f3 with
    | arr f => exact ⟨f, rfl⟩
    | none => cases h7
    | other => cases h7
  simp only [get_arr, ok_bind, pure_eq_ok, Except.ok.injEq, beq_iff_eq, Bool.or_eq_true,
    decide_eq_true_eq] at h3 h4 h5 h7 h8 h9 h10 h14 h16 h17 h18 h19 h20 h21
  obtain ⟨d, hd⟩ := (isArr_iff _).mp h10
  rw [hd] at h11 h12 h13
  simp only [get_arr, ok_bind, pure_eq_ok, Except.ok.injEq] at h12 h13
  refine ⟨t, f, d, ?_⟩
  refine (checks_iff _ t f d (by rfl) (by rfl) (by exact hd) (hwf' (hwf t0 ht0))).mpr ?_
  exact ⟨hdt.trans h2, h3, h4, h5, h7, h8, h9, (dim_eq d t).mp h12, h13, h14, h15, h16, h17, h18, h19,
    h20, h21⟩

/-- A consistent object with a one-dimensional `t` is not altered. -/
theorem base_run_true_valid (conv : Arr → Option Attr) (a : Bool) (w : WB) (t f d : Arr)
    (hwf : Arr.WF t) (hv : Valid w t f d) (hnd : ∃ n, t.shape = [n]) :
    runStmts true a (baseStmts conv) w 0 = .ok (w, 0) := by
  have hwf' : ∀ t', w.t = .arr t' → Arr.WF t' := by
    intro t' h; rw [hv.t_eq] at h; cases h; exact hwf
  have hF := (base_run_false conv a w w hwf').mpr ⟨rfl, t, f, d, hv⟩
  obtain ⟨n, hn⟩ := hnd
  have e1 : alterT w = .ok w := by
    unfold alterT
    rw [hv.t_eq, get_arr, ok_bind, hn]
  have e2 : alterFrameNone w = .ok w := by unfold alterFrameNone; rw [hv.frame_eq]
  have e3 : alterFrameFloat conv w = .ok w := by
    unfold alterFrameFloat
    rw [hv.frame_eq, get_arr, ok_bind, hv.f_dtype]; rfl
  obtain ⟨s, rest, hh⟩ := hv.history
  have e4 : alterHistEmpty w = .ok w := by unfold alterHistEmpty; rw [hh]; rfl
  have e5 : alterHistStr w = .ok w := by unfold alterHistStr; rw [hh]
  simp only [baseStmts, run_check, run_alter_false, run_nil] at hF
  simp only [baseStmts, run_check, run_alter_true, run_nil]
  obtain ⟨h1, h2, h3, h4, h5, h6, h7, h8, h9, h10, h11, h12, h13, h14⟩ := hF
  exact ⟨h1, h2, w, e1, h3, h4, h5, w, e2, h6, w, e3, h7, h8, h9, h10, h11, h12, h13, w, e4, w, e5, by simpa using h14⟩

theorem lmRange_ok {a b : Int} (h1 : 0 ≤ a) (h2 : a ≤ b + 1) : lmRange a b = .ok (Modes.LMRange a b) := by
  unfold lmRange
  have h : ¬ ((b + 1) ^ 2 - a ^ 2 < 0) := by
    have e : (b + 1) ^ 2 - a ^ 2 = (b + 1 - a) * (b + 1 + a) := by ring
    rw [e]
    have := Int.mul_nonneg (a := b + 1 - a) (b := b + 1 + a) (by omega) (by omega)
    omega
  rw [if_neg h]

theorem dim_one_eq (a : Arr) (k : Nat) : a.dim 1 = .ok k ↔ ∃ n rest, a.shape = n :: k :: rest := by
  unfold Arr.dim
  match h : a.shape with
  | [] => simp
  | [_] => simp
  | _ :: _ :: _ => simp

theorem bind_dim_one (d : Arr) (g : Nat → Bool) :
    (do let n ← d.dim 1; pure (g n) : Py Bool) = .ok true ↔ ∃ n k rest, d.shape = n :: k :: rest ∧ g k = true := by
  cases hd : d.dim 1 with
  | error e =>
    rw [error_bind]
    constructor
    · intro h; cases h
    · rintro ⟨n, k, rest, h, _⟩
      rw [(dim_one_eq d k).mpr ⟨n, rest, h⟩] at hd; cases hd
  | ok k =>
    obtain ⟨n, rest, e⟩ := (dim_one_eq d k).mp hd
    simp only [ok_bind, pure_eq_ok, Except.ok.injEq]
    constructor
    · intro h; exact ⟨n, k, rest, e, h⟩
    · rintro ⟨n', k', rest', e', h⟩
      rw [e] at e'
      simp only [List.cons.injEq] at e'
      rw [e'.2.1]; exact h

theorem modes_run_false (a : Bool) (w w' : WM) :
    runStmts false a modesStmts w 0 = .ok (w', 0) ↔ w = w' ∧ ∃ d, ValidModes w d := by
  simp only [modesStmts, run_check, run_alter_false, run_nil, Except.ok.injEq, decide_eq_true_eq]
  constructor
  · rintro ⟨h1, h2, h3, h4, h5, h6, h7⟩
    rw [lmRange_ok (by omega) (by omega)] at h3
    simp only [ok_bind, pure_eq_ok, Except.ok.injEq, beq_iff_eq] at h3
    cases hd : w.base.data with
    | none => rw [hd] at h4; cases h4
    | other => rw [hd] at h4; cases h4
    | arr d =>
      rw [hd] at h4 h5 h6
      simp only [get_arr, ok_bind, pure_eq_ok, Except.ok.injEq, beq_iff_eq] at h4
      rw [get_arr, ok_bind, bind_dim_one] at h6
      obtain ⟨n, k, rest, hs, hk⟩ := h6
      rw [beq_iff_eq] at hk
      refine ⟨h7, d, ⟨by omega, by omega, h3, hd, h4, n, k, rest, hs, ?_⟩⟩
      rw [hk, h3]
      exact Verif.Props.Modes.LM_length _ _ (by omega) (by omega)
  · rintro ⟨rfl, d, hv⟩
    have e1 := hv.ellMin
    have e2 := hv.ellMax
    rw [lmRange_ok e1 e2]
    obtain ⟨n, k, rest, hs, hk⟩ := hv.shape
    simp only [hv.data, get_arr, ok_bind, pure_eq_ok, Except.ok.injEq, beq_iff_eq, decide_eq_true_eq]
    refine ⟨by omega, by omega, hv.LM, hv.dtype, by simp [Arr.ndim, hs], ?_, trivial⟩
    refine (bind_dim_one d (fun n => n == w.LM.length)).mpr ⟨n, k, rest, hs, ?_⟩
    rw [beq_iff_eq, hv.LM]
    have := Verif.Props.Modes.LM_length w.ellMin w.ellMax e1 (by omega)
    omega

theorem grid_run (al a : Bool) (w w' : WG) :
    runStmts al a gridStmts w 0 = .ok (w', 0) ↔ w = w' ∧ ∃ d, ValidGrid w d := by
  simp only [gridStmts, run_check, run_nil, Except.ok.injEq, decide_eq_true_eq]
  constructor
  · rintro ⟨h1, h2, h4, h5, h6, h7⟩
    cases hd : w.base.data with
    | none => rw [hd] at h4; cases h4
    | other => rw [hd] at h4; cases h4
    | arr d =>
      rw [hd] at h4 h5 h6
      simp only [get_arr, ok_bind, pure_eq_ok, Except.ok.injEq, beq_iff_eq] at h4
      rw [get_arr, ok_bind, bind_dim_one] at h6
      obtain ⟨n, k, rest, hs, hk⟩ := h6
      rw [beq_iff_eq] at hk
      exact ⟨h7, d, ⟨by omega, by omega, hd, h4, n, k, rest, hs, hk⟩⟩
  · rintro ⟨rfl, d, hv⟩
    obtain ⟨n, k, rest, hs, hk⟩ := hv.shape
    have e1 := hv.nTheta
    have e2 := hv.nPhi
    simp only [hv.data, get_arr, ok_bind, pure_eq_ok, Except.ok.injEq, beq_iff_eq, decide_eq_true_eq]
    refine ⟨by omega, by omega, hv.dtype, by simp [Arr.ndim, hs], ?_, trivial⟩
    exact (bind_dim_one d (fun n => (n : Int) == w.nTheta * w.nPhi)).mpr
      ⟨n, k, rest, hs, by rw [beq_iff_eq]; exact hk⟩

end Verif.Validity
