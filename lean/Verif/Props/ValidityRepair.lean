import Verif.Props.Validity

/-!
# C16: `ensure_validity(alter=True)` of `WaveformModes`
-/

namespace Verif.Props.ValidityRepair
open Verif.Validity Verif.Spec.Validity Verif.Props.Validity

variable (conv : Arr → Option Attr)

/-- What no alteration changes is not changed by the function. -/
theorem run_keeps {σ β : Type} (p : σ → β) (al a : Bool) (l : List (Stmt σ)) (hl : ∀ f, .alter f ∈ l → ∀ w w', f w = .ok w' → p w' = p w) (w w' : σ) (e e' : Nat)
    (h : runStmts al a l w e = .ok (w', e')) : p w' = p w := by
  induction l generalizing w e with
  | nil =>
    simp only [runStmts, Except.ok.injEq, Prod.mk.injEq] at h
    rw [h.1]
  | cons s l ih =>
    have ih := ih fun f hf => hl f (by simp [hf])
    cases s with
    | check c =>
      simp only [runStmts] at h
      generalize c w = x at h
      rcases x with x | v
      · cases h
      rw [ok_bind] at h
      generalize test a e v = y at h
      rcases y with y | e1
      · cases h
      exact ih _ _ h
    | alter f =>
      simp only [runStmts] at h
      cases al
      · exact ih _ _ h
      · rw [if_pos rfl] at h
        cases hf : f w with
        | error x =>
          rw [hf] at h
          cases h
        | ok w1 =>
          rw [hf, ok_bind] at h
          rw [ih _ _ h, hl f (by simp) w w1 hf]

/-- The data are not altered. -/
theorem base_data (al a : Bool) (w w' : WB) (b : Bool) (h : baseValidity conv al a w = .ok (w', b)) : w'.data = w.data := by
  unfold baseValidity at h
  cases hr : runStmts al a (baseStmts conv) w 0 with
  | error e =>
    rw [hr] at h
    cases h
  | ok x =>
    obtain ⟨w1, e1⟩ := x
    rw [hr, ok_bind] at h
    have e : w1 = w' := by
      by_cases h0 : e1 = 0
      · simp [h0] at h
        exact h.1
      · simp [h0] at h
        exact h.1
    subst e
    refine run_keeps WB.data al a _ (fun f hf w w' h => ?_) w w1 0 e1 hr
    simp only [baseStmts, List.mem_cons, reduceCtorEq, Stmt.alter.injEq, List.not_mem_nil, or_false, false_or] at hf
    rcases hf with rfl | rfl | rfl | rfl | rfl
    · unfold alterT at h
      generalize w.t.get = x at h
      rcases x with x | t
      · cases h
      rw [ok_bind] at h
      split at h <;> cases h <;> rfl
    · unfold alterFrameNone at h
      split at h <;> cases h <;> rfl
    · unfold alterFrameFloat at h
      generalize w.frame.get = x at h
      rcases x with x | t
      · cases h
      rw [ok_bind] at h
      split at h
      · split at h <;> cases h <;> rfl
      · cases h
        rfl
    · unfold alterHistEmpty at h
      split at h <;> cases h <;> rfl
    · unfold alterHistStr at h
      split at h <;> cases h <;> rfl

theorem alterLM_eq {w : WM} (h1 : 0 ≤ w.ellMin) (h2 : w.ellMin ≤ w.ellMax + 1) : alterLM w = .ok { w with LM := Modes.LMRange w.ellMin w.ellMax } := by
  unfold alterLM
  rw [lmRange_ok h1 h2, ok_bind]
  split
  · rfl
  · next h => rw [← Classical.not_not.1 h]

theorem modes_run_true (a : Bool) (w w' : WM) :
    runStmts true a modesStmts w 0 = .ok (w', 0) ↔ w' = { w with LM := Modes.LMRange w.ellMin w.ellMax } ∧ ∃ d, ValidModes w' d := by
  have F := modes_run_false a
  simp only [modesStmts, run_check, run_alter_false, run_nil, Except.ok.injEq, decide_eq_true_eq] at F
  simp only [modesStmts, run_check, run_alter_true, run_nil, Except.ok.injEq, decide_eq_true_eq]
  constructor
  · rintro ⟨h1, h2, w1, hw, h3⟩
    rw [alterLM_eq (by omega) (by omega)] at hw
    cases hw
    obtain ⟨rfl, k⟩ := (F { w with LM := Modes.LMRange w.ellMin w.ellMax } w').mp ⟨h1, h2, h3⟩
    exact ⟨rfl, k⟩
  · rintro ⟨rfl, d, hd⟩
    have e1 : 0 ≤ w.ellMin := hd.ellMin
    have e2 : w.ellMin ≤ w.ellMax + 1 := hd.ellMax
    obtain ⟨-, -, k⟩ := (F _ _).mpr ⟨rfl, d, hd⟩
    exact ⟨by omega, by omega, _, alterLM_eq e1 e2, k⟩

/-- C16: if `ensure_validity(alter=True)` of a `WaveformModes` returns True, the object satisfies the conditions for modes afterwards, and its ell range is the same as before. -/
theorem modes_alter_true_partial (assertions : Bool) (w w' : WM) (h : modesValidity conv true assertions w = .ok (w', true)) :
    (∃ d, ValidModes w' d) ∧ w'.ellMin = w.ellMin ∧ w'.ellMax = w.ellMax ∧ w'.base.data = w.base.data := by
  unfold modesValidity at h
  cases hr : runStmts true assertions modesStmts w 0 with
  | error e =>
    rw [hr] at h
    cases h
  | ok x =>
    obtain ⟨w1, e1⟩ := x
    rw [hr, ok_bind] at h
    by_cases h0 : e1 = 0
    · subst h0
      obtain ⟨rfl, d, hd⟩ := (modes_run_true assertions w w1).mp hr
      simp only [ne_eq, not_true_eq_false, if_false] at h
      cases hb : baseValidity conv true assertions w.base with
      | error e =>
        rw [hb] at h
        cases h
      | ok y =>
        obtain ⟨b, v⟩ := y
        rw [hb, ok_bind] at h
        cases h
        have hdat := base_data conv _ _ _ _ _ hb
        exact ⟨⟨d, { hd with data := hdat.trans hd.data }⟩, rfl, rfl, hdat⟩
    · simp [h0] at h

/-- C16: with assertions, if `ensure_validity(alter=True)` of a `WaveformModes` returns, the object is consistent afterwards. -/
theorem modes_alter_makes_valid (w w' : WM) (b : Bool) (hwf : ∀ t, w.base.t = .arr t → Arr.WF t) (h : modesValidity conv true true w = .ok (w', b)) :
    b = true ∧ (∃ d, ValidModes w' d) ∧ ∃ t f d, Valid w'.base t f d := by
  have h' := h
  unfold modesValidity at h
  cases hr : runStmts true true modesStmts w 0 with
  | error e =>
    rw [hr] at h
    cases h
  | ok x =>
    obtain ⟨w1, e1⟩ := x
    have e0 := run_assert _ _ _ _ _ hr
    subst e0
    rw [hr, ok_bind] at h
    obtain ⟨rfl, d, hd⟩ := (modes_run_true true w w1).mp hr
    simp only [ne_eq, not_true_eq_false, if_false] at h
    cases hb : baseValidity conv true true w.base with
    | error e =>
      rw [hb] at h
      cases h
    | ok y =>
      obtain ⟨c, v⟩ := y
      have hv : v = true := by
        unfold baseValidity at hb
        cases hr2 : runStmts true true (baseStmts conv) w.base 0 with
        | error e =>
          rw [hr2] at hb
          cases hb
        | ok z =>
          obtain ⟨w2, e2⟩ := z
          have e0 := run_assert _ _ _ _ _ hr2
          subst e0
          rw [hr2, ok_bind] at hb
          simp at hb
          exact hb.2
      subst hv
      rw [hb, ok_bind] at h
      cases h
      exact ⟨rfl, (modes_alter_true_partial conv true w _ h').1, base_alter_makes_valid conv true w.base c hwf hb⟩

/-- C16: a waveform that is consistent except for its list of modes, which may be any, is repaired by `ensure_validity(alter=True)`. -/
theorem modes_alter_repairs (assertions : Bool) (w : WM) (l : List (Int × Int)) (hm : ∃ d, ValidModes w d) (t f d : Arr) (hwf : Arr.WF t) (hv : Valid w.base t f d) (hnd : ∃ n, t.shape = [n]) :
    modesValidity conv true assertions { w with LM := l } = .ok (w, true) := by
  obtain ⟨dd, hd⟩ := hm
  have e : { w with LM := Modes.LMRange w.ellMin w.ellMax } = w := by rw [← hd.LM]
  unfold modesValidity
  rw [(modes_run_true assertions { w with LM := l } w).mpr ⟨e.symm, dd, hd⟩, ok_bind]
  simp only [ne_eq, not_true_eq_false, if_false]
  rw [base_alter_keeps_valid conv assertions w.base t f d hwf hv hnd, ok_bind]

/-- A waveform with a wrong list of modes. -/
example : modesValidity conv true false { good with LM := [(7, 7)] } = .ok (good, true) := by
  obtain ⟨h1, t, f, d, h2⟩ := good_valid
  have e : t = ⟨.float, [2], [.fin 1, .fin 2]⟩ := by
    have := h2.t_eq
    simpa [good] using this.symm
  exact modes_alter_repairs conv false good _ h1 t f d (by rw [e]; rfl) h2 ⟨2, by rw [e]⟩

/-! ## Attributes that are repaired -/

/-- The attributes of `w'` are those of `w`, except that the times may be a column, the frame may be missing where `w` has an empty one or be given by floats that stand for the frame of `w`, and the history may
be missing where `w` has one empty line or be given as one string with line breaks. -/
structure Sloppy (w w' : WB) : Prop where
  t : w'.t = w.t ∨ ∃ t n, w.t = .arr t ∧ t.shape = [n] ∧ w'.t = .arr { t with shape := [n, 1] }
  frame : w'.frame = w.frame ∨ (w'.frame = .none ∧ w.frame = .arr ⟨.quaternion, [0], []⟩) ∨ ∃ g, w'.frame = .arr g ∧ g.dtype = .float ∧ conv g = some w.frame
  history : w'.history = w.history ∨ ((w'.history = .none ∨ w'.history = .str [] ∨ w'.history = .list []) ∧ w.history = .list [some []]) ∨
    ∃ s, s ≠ [] ∧ w'.history = .str s ∧ w.history = .list ((History.splitLines s).map some)
  data : w'.data = w.data
  frameType : w'.frameType = w.frameType
  dataType : w'.dataType = w.dataType
  rScaled : w'.rScaled = w.rScaled
  mScaled : w'.mScaled = w.mScaled

/-- C16: `ensure_validity(alter=True)` repairs all this, and returns True. -/
theorem base_alter_repairs (assertions : Bool) (w w' : WB) (t f d : Arr) (hwf : Arr.WF t) (hv : Valid w t f d) (hnd : ∃ n, t.shape = [n]) (hs : Sloppy conv w w') :
    baseValidity conv true assertions w' = .ok (w, true) := by
  have hwf' : ∀ t', w.t = .arr t' → Arr.WF t' := by
    intro t' h
    rw [hv.t_eq] at h
    cases h
    exact hwf
  have hF := (base_run_false conv assertions w w hwf').mpr ⟨rfl, t, f, d, hv⟩
  obtain ⟨n, hn⟩ := hnd
  obtain ⟨ht, hfr, hh, e1, e2, e3, e4, e5⟩ := hs
  obtain ⟨t', f', d', h', ft, dt, rs, ms⟩ := w'
  obtain ⟨wt, wf, wd, wh, wft, wdt, wrs, wms⟩ := w
  simp only at ht hfr hh e1 e2 e3 e4 e5
  subst e1 e2 e3 e4 e5
  obtain rfl : wt = .arr t := hv.t_eq
  obtain rfl : wf = .arr f := hv.frame_eq
  have a1 : alterT ⟨t', f', d', h', ft, dt, rs, ms⟩ = .ok ⟨.arr t, f', d', h', ft, dt, rs, ms⟩ := by
    rcases ht with rfl | ⟨t2, k, q1, q2, rfl⟩
    · unfold alterT
      simp only [get_arr, ok_bind, hn]
    · cases q1
      unfold alterT
      simp only [get_arr, ok_bind]
      rw [← q2]
  have a0 : t'.isArr = true ∧ (do let t ← t'.get; pure (t.dtype == .float) : Py Bool) = .ok true := by
    have := hv.t_dtype
    rcases ht with rfl | ⟨t2, k, q1, q2, rfl⟩
    · exact ⟨rfl, by simp [get_arr, ok_bind, pure_eq_ok, this]⟩
    · cases q1
      exact ⟨rfl, by simp [get_arr, ok_bind, pure_eq_ok, this]⟩
  obtain ⟨f2, a2, a3, a4⟩ : ∃ f2, alterFrameNone ⟨.arr t, f', d', h', ft, dt, rs, ms⟩ = .ok ⟨.arr t, f2, d', h', ft, dt, rs, ms⟩ ∧ f2.isArr = true ∧
      alterFrameFloat conv ⟨.arr t, f2, d', h', ft, dt, rs, ms⟩ = .ok ⟨.arr t, .arr f, d', h', ft, dt, rs, ms⟩ := by
    have keep : alterFrameFloat conv ⟨.arr t, .arr f, d', h', ft, dt, rs, ms⟩ = .ok ⟨.arr t, .arr f, d', h', ft, dt, rs, ms⟩ := by
      unfold alterFrameFloat
      simp only [get_arr, ok_bind]
      rw [hv.f_dtype]
      rfl
    rcases hfr with rfl | ⟨rfl, q⟩ | ⟨g, rfl, q1, q2⟩
    · exact ⟨.arr f, rfl, rfl, keep⟩
    · refine ⟨.arr f, ?_, rfl, keep⟩
      rw [q]
      rfl
    · refine ⟨.arr g, rfl, rfl, ?_⟩
      unfold alterFrameFloat
      simp only [get_arr, ok_bind]
      rw [if_pos q1, q2]
  obtain ⟨h2, a5, a6⟩ : ∃ h2, alterHistEmpty ⟨.arr t, .arr f, d', h', ft, dt, rs, ms⟩ = .ok ⟨.arr t, .arr f, d', h2, ft, dt, rs, ms⟩ ∧
      alterHistStr ⟨.arr t, .arr f, d', h2, ft, dt, rs, ms⟩ = .ok ⟨.arr t, .arr f, d', wh, ft, dt, rs, ms⟩ := by
    rcases hh with rfl | ⟨q, rfl⟩ | ⟨s, q, rfl, rfl⟩
    · obtain ⟨s, rest, hh⟩ := hv.history
      simp only at hh
      subst hh
      exact ⟨_, rfl, rfl⟩
    · refine ⟨.list [some []], ?_, rfl⟩
      rcases q with rfl | rfl | rfl <;> rfl
    · refine ⟨.str s, ?_, rfl⟩
      rcases s with _ | ⟨c, s⟩
      · exact absurd rfl q
      · rfl
  simp only [baseStmts, run_check, run_alter_false, run_nil] at hF
  obtain ⟨h1, h2', h3, h4, h5, h6, h7, h8, h9, h10, h11, h12, h13, h14⟩ := hF
  have run : runStmts true assertions (baseStmts conv) ⟨t', f', d', h', ft, dt, rs, ms⟩ 0 = .ok (⟨.arr t, .arr f, d', wh, ft, dt, rs, ms⟩, 0) := by
    simp only [baseStmts, run_check, run_alter_true, run_nil]
    exact ⟨congrArg _ a0.1, a0.2, _, a1, h3, h4, h5, _, a2, congrArg _ a3, _, a4, h7, h8, h9, h10, h11, h12, h13, _, a5, _, a6, by simpa using h14⟩
  unfold baseValidity
  rw [run]
  rfl

/-- A column of times, no frame and no history. -/
example : baseValidity conv true true { good.base with t := .arr ⟨.float, [2, 1], [.fin 1, .fin 2]⟩, frame := .none, history := .none } = .ok (good.base, true) := by
  obtain ⟨-, t, f, d, h2⟩ := good_valid
  have e : t = ⟨.float, [2], [.fin 1, .fin 2]⟩ := by
    have := h2.t_eq
    simpa [good] using this.symm
  exact base_alter_repairs conv true good.base _ t f d (by rw [e]; rfl) h2 ⟨2, by rw [e]⟩
    ⟨.inr ⟨_, 2, rfl, rfl, rfl⟩, .inr (.inl ⟨rfl, rfl⟩), .inr (.inl ⟨.inl rfl, rfl⟩), rfl, rfl, rfl, rfl, rfl⟩

end Verif.Props.ValidityRepair
