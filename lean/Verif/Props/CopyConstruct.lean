import Verif.Props.Validity
import Verif.Model.CopyConstruct
import Verif.Spec.CopyConstruct

/-!
# C109: copies made by the constructors, and copies without data
-/

namespace Verif.Props.CopyConstruct
open Verif Verif.Validity Verif.Spec.Validity Verif.CopyConstruct Verif.Spec.CopyConstruct

variable (conv : Arr → Option Attr) (lines after : List (List Char)) (override : Bool)

theorem record_list {l : List (Option (List Char))} : record lines (.list l) = .ok (.list (l ++ lines.map some)) := rfl

theorem copied_valid {other : WB} {t f d : Arr} (h : Valid other t f d) : ∃ w, copied lines other = .ok w ∧ SameBase w other ∧ Valid w t f d := by
  obtain ⟨s, rest, hh⟩ := h.history
  refine ⟨{ other with history := .list (some s :: rest ++ lines.map some) }, by rw [copied, hh, record_list, ok_bind]; rfl, ⟨rfl, rfl, rfl, rfl, rfl, rfl, rfl, _, _, hh, rfl⟩, ?_⟩
  exact ⟨h.t_eq, h.frame_eq, h.data_eq, h.t_dtype, h.t_finite, h.t_shape, h.t_increasing, h.f_dtype, h.f_finite, h.f_size, h.d_finite, h.d_shape, ⟨s, _, rfl⟩, h.frameType, h.dataType, h.rScaled, h.mScaled⟩

theorem informed_valid {other : WB} {t f d : Arr} (h : Valid other t f d) : ∃ w, informed after other = .ok w ∧ SameBase w other ∧ Valid w t f d := by
  obtain ⟨s, rest, hh⟩ := h.history
  refine ⟨{ other with history := .list (some s :: rest ++ after.map some) }, by rw [informed, hh, record_list, ok_bind]; rfl, ⟨rfl, rfl, rfl, rfl, rfl, rfl, rfl, _, _, hh, rfl⟩, ?_⟩
  exact ⟨h.t_eq, h.frame_eq, h.data_eq, h.t_dtype, h.t_finite, h.t_shape, h.t_increasing, h.f_dtype, h.f_finite, h.f_size, h.d_finite, h.d_shape, ⟨s, _, rfl⟩, h.frameType, h.dataType, h.rScaled, h.mScaled⟩

theorem _root_.Verif.Spec.CopyConstruct.SameBase.trans {a b c : WB} (h : SameBase a b) (k : SameBase b c) : SameBase a c := by
  obtain ⟨l, m, e1, e2⟩ := h.history
  obtain ⟨l', m', e3, e4⟩ := k.history
  rw [e4] at e1
  cases e1
  exact ⟨h.t.trans k.t, h.frame.trans k.frame, h.data.trans k.data, h.frameType.trans k.frameType, h.dataType.trans k.dataType, h.rScaled.trans k.rScaled, h.mScaled.trans k.mScaled, l', m' ++ m, e3, by rw [e2, List.append_assoc]⟩

/-- C109, `WaveformBase(w)`: for each consistent waveform it is a consistent waveform with the same attributes. -/
theorem base_copy {other : WB} {t f d : Arr} (hv : Valid other t f d) (hwf : Arr.WF t) (hn : ∃ n, t.shape = [n]) :
    ∃ w, baseCopy conv lines after override other = .ok w ∧ SameBase w other ∧ Valid w t f d := by
  obtain ⟨w1, e1, s1, v1⟩ := copied_valid lines hv
  obtain ⟨w2, e2, s2, v2⟩ := informed_valid after v1
  refine ⟨w2, ?_, s2.trans s1, v2⟩
  rw [baseCopy, e1, ok_bind, Props.Validity.base_alter_keeps_valid conv _ w1 t f d hwf v1 hn, ok_bind]
  exact e2

theorem modes_run_true (a : Bool) (w : WM) (d : Arr) (h : ValidModes w d) : runStmts true a modesStmts w 0 = .ok (w, 0) := by
  have hF := (modes_run_false a w w).2 ⟨rfl, d, h⟩
  have e : alterLM w = .ok w := by
    unfold alterLM
    rw [lmRange_ok h.ellMin h.ellMax, ok_bind, if_neg (by rw [h.LM]; simp)]
  simp only [modesStmts, run_check, run_alter_false, run_nil] at hF
  simp only [modesStmts, run_check, run_alter_true, run_nil]
  exact ⟨hF.1, hF.2.1, w, e, by simpa using hF.2.2⟩

/-- C109, `WaveformModes(w)`, likewise, with the same modes. -/
theorem modes_copy {other : WM} {t f d d' : Arr} (hv : Valid other.base t f d) (hwf : Arr.WF t) (hn : ∃ n, t.shape = [n]) (hm : ValidModes other d') :
    ∃ w, modesCopy conv lines after override other = .ok w ∧ SameBase w.base other.base ∧ w.ellMin = other.ellMin ∧ w.ellMax = other.ellMax ∧ w.LM = other.LM ∧ Valid w.base t f d ∧ ValidModes w d' := by
  obtain ⟨w1, e1, s1, v1⟩ := copied_valid lines hv
  obtain ⟨w2, e2, s2, v2⟩ := informed_valid after v1
  have m1 : ValidModes { base := w1, ellMin := other.ellMin, ellMax := other.ellMax, LM := other.LM } d' := ⟨hm.ellMin, hm.ellMax, hm.LM, s1.data.trans hm.data, hm.dtype, hm.shape⟩
  refine ⟨{ base := w2, ellMin := other.ellMin, ellMax := other.ellMax, LM := other.LM }, ?_, s2.trans s1, rfl, rfl, rfl, v2, hm.ellMin, hm.ellMax, hm.LM, (s2.data.trans s1.data).trans hm.data, hm.dtype, hm.shape⟩
  have hval : modesValidity conv true (!override) { base := w1, ellMin := other.ellMin, ellMax := other.ellMax, LM := other.LM } = .ok ({ base := w1, ellMin := other.ellMin, ellMax := other.ellMax, LM := other.LM }, true) := by
    unfold modesValidity
    rw [modes_run_true _ _ d' m1, ok_bind]
    simp only [ne_eq, not_true_eq_false, if_false]
    rw [Props.Validity.base_alter_keeps_valid conv _ w1 t f d hwf v1 hn, ok_bind]
  rw [modesCopy, e1, ok_bind, hval, ok_bind]
  show (do let b ← informed after w1; pure _) = _
  rw [e2, ok_bind]
  rfl

/-- A test that fails with assertions on is an exception. -/
theorem grid_assert_error (w : WG) (d : Arr) (hd : w.base.data = .arr d) (hc : d.dtype = .complex) {n k : Nat} {rest : List Nat} (hs : d.shape = n :: k :: rest) (h1 : 0 ≤ w.nTheta) (h2 : 0 ≤ w.nPhi) (hk : (k : Int) ≠ w.nTheta * w.nPhi) :
    gridValidity conv true true w = .error .assertion := by
  have e : runStmts true true gridStmts w 0 = .error .assertion := by
    simp only [gridStmts, runStmts, hd, get_arr, ok_bind, pure_eq_ok, hc, Arr.ndim, Arr.dim, hs, test, h1, h2, ge_iff_le, decide_true, if_true]
    simp [ok_bind, error_bind, hk]
  unfold gridValidity
  rw [e, error_bind]

/-- C109 does not hold of `WaveformGrid`: for every consistent grid waveform with data, `WaveformGrid(g)` is an `AssertionError`, because `n_theta` and `n_phi` are not copied. -/
theorem grid_copy_raises {other : WG} {t f d d' : Arr} (hv : Valid other.base t f d) (hg : ValidGrid other d') (h0 : other.nTheta * other.nPhi ≠ 0) : gridCopy conv lines after false none none other = .error .assertion := by
  obtain ⟨w1, e1, s1, v1⟩ := copied_valid lines hv
  obtain ⟨n, k, rest, hs, hk⟩ := hg.shape
  rw [gridCopy, e1, ok_bind]
  show (do let (w, _) ← gridValidity conv true true { base := w1, nTheta := 0, nPhi := 0 }; _) = _
  rw [grid_assert_error conv { base := w1, nTheta := 0, nPhi := 0 } d' (s1.data.trans hg.data) hg.dtype hs le_rfl le_rfl (by
    show (k : Int) ≠ 0 * 0
    omega), error_bind]

/-- It is a copy if both numbers are passed again. -/
theorem grid_copy_partial {other : WG} {t f d d' : Arr} (hv : Valid other.base t f d) (hwf : Arr.WF t) (hn : ∃ n, t.shape = [n]) (hg : ValidGrid other d') :
    ∃ w, gridCopy conv lines after override (some other.nTheta) (some other.nPhi) other = .ok w ∧ SameBase w.base other.base ∧ w.nTheta = other.nTheta ∧ w.nPhi = other.nPhi ∧ Valid w.base t f d ∧ ValidGrid w d' := by
  obtain ⟨w1, e1, s1, v1⟩ := copied_valid lines hv
  obtain ⟨w2, e2, s2, v2⟩ := informed_valid after v1
  have m1 : ValidGrid { base := w1, nTheta := other.nTheta, nPhi := other.nPhi } d' := ⟨hg.nTheta, hg.nPhi, s1.data.trans hg.data, hg.dtype, hg.shape⟩
  refine ⟨{ base := w2, nTheta := other.nTheta, nPhi := other.nPhi }, ?_, s2.trans s1, rfl, rfl, v2, hg.nTheta, hg.nPhi, (s2.data.trans s1.data).trans hg.data, hg.dtype, hg.shape⟩
  have hval : gridValidity conv true (!override) { base := w1, nTheta := other.nTheta, nPhi := other.nPhi } = .ok ({ base := w1, nTheta := other.nTheta, nPhi := other.nPhi }, true) := by
    unfold gridValidity
    rw [(grid_run true _ _ _).2 ⟨rfl, d', m1⟩, ok_bind]
    simp only [ne_eq, not_true_eq_false, if_false]
    rw [Props.Validity.base_alter_keeps_valid conv _ w1 t f d hwf v1 hn, ok_bind]
  rw [gridCopy, e1, ok_bind]
  show (do let (w, _) ← gridValidity conv true (!override) { base := w1, nTheta := other.nTheta, nPhi := other.nPhi }; _) = _
  rw [hval, ok_bind]
  show (do let b ← informed after w1; pure _) = _
  rw [e2, ok_bind]
  rfl

/-! ## The method `copy` -/

/-- C109, `w.copy()`: the same waveform, for modes and for grids, consistent if the original is. -/
theorem copy_method :
    (∀ {w : WM} {t f d d' : Arr}, Valid w.base t f d → ValidModes w d' → ∃ v, copyModes lines w = .ok v ∧ SameBase v.base w.base ∧ v.ellMin = w.ellMin ∧ v.ellMax = w.ellMax ∧ v.LM = w.LM ∧ Valid v.base t f d ∧ ValidModes v d') ∧
    (∀ {w : WG} {t f d d' : Arr}, Valid w.base t f d → ValidGrid w d' → ∃ v, copyGrid lines w = .ok v ∧ SameBase v.base w.base ∧ v.nTheta = w.nTheta ∧ v.nPhi = w.nPhi ∧ Valid v.base t f d ∧ ValidGrid v d') := by
  constructor
  · intro w t f d d' hv hm
    obtain ⟨b, e, sb, vb⟩ := informed_valid lines hv
    have e' : copyBase lines w.base = .ok b := e
    exact ⟨{ w with base := b }, by rw [copyModes, e', ok_bind]; rfl, sb, rfl, rfl, rfl, vb, hm.ellMin, hm.ellMax, hm.LM, sb.data.trans hm.data, hm.dtype, hm.shape⟩
  · intro w t f d d' hv hg
    obtain ⟨b, e, sb, vb⟩ := informed_valid lines hv
    have e' : copyBase lines w.base = .ok b := e
    exact ⟨{ w with base := b }, by rw [copyGrid, e', ok_bind]; rfl, sb, rfl, rfl, vb, hg.nTheta, hg.nPhi, sb.data.trans hg.data, hg.dtype, hg.shape⟩

/-! ## Copies without data -/

theorem baseWithout_valid {other : WB} {t f d : Arr} (hv : Valid other t f d) :
    ∃ w, baseWithout lines other = .ok w ∧ w.frameType = other.frameType ∧ w.dataType = other.dataType ∧ w.rScaled = other.rScaled ∧ w.mScaled = other.mScaled ∧
      Valid w ⟨.float, [0], []⟩ ⟨.quaternion, [0], []⟩ ⟨.complex, [0, 0], []⟩ := by
  obtain ⟨s, rest, hh⟩ := hv.history
  refine ⟨{ other with t := .arr ⟨.float, [0], []⟩, frame := .arr ⟨.quaternion, [0], []⟩, data := .arr ⟨.complex, [0, 0], []⟩, history := .list (some s :: rest ++ lines.map some) }, by rw [baseWithout, hh, record_list, ok_bind]; rfl, rfl, rfl, rfl, rfl, ?_⟩
  have fin : ∀ d sh, Finite ⟨d, sh, []⟩ := fun d sh x hx => nomatch hx
  exact { t_eq := rfl, frame_eq := rfl, data_eq := rfl, t_dtype := rfl, t_finite := fin _ _, t_shape := .inl rfl, t_increasing := ⟨[], rfl, .nil⟩, f_dtype := rfl, f_finite := fin _ _, f_size := .inl rfl, d_finite := fin _ _, d_shape := ⟨0, [0], [], rfl, rfl⟩, history := ⟨s, _, rfl⟩, frameType := hv.frameType, dataType := hv.dataType, rScaled := hv.rScaled, mScaled := hv.mScaled }

/-- C109, `WaveformModes.copy_without_data()`: a consistent waveform without modes, of the same types. -/
theorem modes_without {other : WM} {t f d : Arr} (hv : Valid other.base t f d) :
    ∃ w, modesWithout lines other = .ok w ∧ w.base.frameType = other.base.frameType ∧ w.base.dataType = other.base.dataType ∧ w.base.rScaled = other.base.rScaled ∧ w.base.mScaled = other.base.mScaled ∧
      (∃ d, ValidModes w d) ∧ ∃ t f d, Valid w.base t f d := by
  obtain ⟨b, e, h1, h2, h3, h4, v⟩ := baseWithout_valid lines hv
  have hl : lmRange 0 (-1) = .ok (Modes.LMRange 0 (-1)) := lmRange_ok le_rfl (by omega)
  refine ⟨{ base := b, ellMin := 0, ellMax := -1, LM := Modes.LMRange 0 (-1) }, ?_, h1, h2, h3, h4, ⟨_, le_rfl, ?_, rfl, v.data_eq, rfl, 0, 0, [], rfl, ?_⟩, _, _, _, v⟩
  · rw [modesWithout, e, ok_bind, hl, ok_bind]
    rfl
  · show (0 : Int) ≤ -1 + 1
    omega
  · show ((0 : Nat) : Int) = (-1 + 1) ^ 2 - 0 ^ 2
    norm_num

/-- C109 does not hold of `WaveformGrid.copy_without_data()`: for every consistent grid waveform with data, the result is not consistent; it claims as many points as before. -/
theorem grid_without_inconsistent {other : WG} {t f d d' : Arr} (hv : Valid other.base t f d) (_hg : ValidGrid other d') (h0 : other.nTheta * other.nPhi ≠ 0) :
    ∃ w, gridWithout lines other = .ok w ∧ w.nTheta = other.nTheta ∧ w.nPhi = other.nPhi ∧ (¬ ∃ d, ValidGrid w d) ∧ gridValidity conv true true w = .error .assertion := by
  obtain ⟨b, e, -, -, -, -, v⟩ := baseWithout_valid lines hv
  refine ⟨{ other with base := b }, by rw [gridWithout, e, ok_bind]; rfl, rfl, rfl, ?_, ?_⟩
  · rintro ⟨d, h⟩
    have hd : d = ⟨.complex, [0, 0], []⟩ := by
      have := h.data.symm.trans v.data_eq
      cases this
      rfl
    obtain ⟨n, k, rest, hs, hk⟩ := h.shape
    rw [hd] at hs
    cases hs
    exact h0 hk.symm
  · exact grid_assert_error conv _ _ v.data_eq rfl (n := 0) (k := 0) (rest := []) rfl _hg.nTheta _hg.nPhi fun hk => h0 hk.symm

/-! ## Non-vacuity -/

open Verif.Props.Validity (good good_valid badTimes)

/-- A waveform to which the theorems apply. -/
example : ∃ t f d d', Valid good.base t f d ∧ Arr.WF t ∧ (∃ n, t.shape = [n]) ∧ ValidModes good d' := by
  obtain ⟨⟨d', h1⟩, t, f, d, h2⟩ := good_valid
  have ht := h2.t_eq
  cases ht
  exact ⟨_, f, d, d', h2, rfl, ⟨2, rfl⟩, h1⟩

/-- A grid with one point. -/
def grid : WG := { base := good.base, nTheta := 1, nPhi := 1 }

example : ∃ t f d d', Valid grid.base t f d ∧ Arr.WF t ∧ (∃ n, t.shape = [n]) ∧ ValidGrid grid d' ∧ grid.nTheta * grid.nPhi ≠ 0 := by
  obtain ⟨-, t, f, d, h2⟩ := good_valid
  have ht := h2.t_eq
  cases ht
  exact ⟨_, f, d, _, h2, rfl, ⟨2, rfl⟩, ⟨by decide, by decide, rfl, rfl, 2, 1, [], rfl, by decide⟩, by decide⟩

end Verif.Props.CopyConstruct
