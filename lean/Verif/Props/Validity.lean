import Verif.Lemmas.Validity

/-!
# C16: what `ensure_validity` accepts
-/

namespace Verif.Props.Validity
open Verif.Validity Verif.Spec.Validity

variable (conv : Arr → Option Attr)

/-- C16.  `WaveformBase.ensure_validity(alter=False)` returns True exactly for consistent
waveforms, whether or not assertions are on, and changes nothing. -/
theorem base_true_iff (assertions : Bool) (w w' : WB) (hwf : ∀ t, w.t = .arr t → Arr.WF t) :
    baseValidity conv false assertions w = .ok (w', true) ↔ w = w' ∧ ∃ t f d, Valid w t f d := by
  rw [← base_run_false conv assertions w w' hwf]
  unfold baseValidity
  cases h : runStmts false assertions (baseStmts conv) w 0 with
  | error e => simp [error_bind]
  | ok x =>
    obtain ⟨w1, e1⟩ := x
    simp only [ok_bind]
    by_cases h0 : e1 = 0
    · simp [h0]
    · simp [h0]

/-- C16.  `is_valid` is True exactly for consistent waveforms. -/
theorem is_valid_iff (w : WB) (hwf : ∀ t, w.t = .arr t → Arr.WF t) :
    isValid conv w = .ok true ↔ ∃ t f d, Valid w t f d := by
  have h := base_true_iff conv false w
  unfold isValid
  constructor
  · intro h1
    cases hb : baseValidity conv false false w with
    | error e => rw [hb] at h1; cases h1
    | ok x =>
      obtain ⟨w1, b⟩ := x
      rw [hb] at h1
      simp only [ok_bind, pure_eq_ok, Except.ok.injEq] at h1
      subst h1
      exact ((h w1 hwf).mp hb).2
  · intro hv
    rw [(h w hwf).mpr ⟨rfl, hv⟩]
    rfl

/-- C16.  With assertions, an exception is raised exactly for inconsistent waveforms. -/
theorem base_assertions_raise_iff (w : WB) (hwf : ∀ t, w.t = .arr t → Arr.WF t) :
    (∃ e, baseValidity conv false true w = .error e) ↔ ¬ ∃ t f d, Valid w t f d := by
  constructor
  · rintro ⟨e, he⟩ hv
    rw [(base_true_iff conv true w w hwf).mpr ⟨rfl, hv⟩] at he
    cases he
  · intro hv
    cases hb : baseValidity conv false true w with
    | error e => exact ⟨e, rfl⟩
    | ok x =>
      exfalso
      obtain ⟨w1, b⟩ := x
      unfold baseValidity at hb
      cases hr : runStmts false true (baseStmts conv) w 0 with
      | error e => rw [hr] at hb; cases hb
      | ok y =>
        obtain ⟨w2, e2⟩ := y
        have := run_assert _ _ _ _ _ hr
        subst this
        exact hv ((base_run_false conv true w w2 hwf).mp hr).2

/-- C16.  If `ensure_validity(alter=True)` returns True, the object is consistent afterwards. -/
theorem base_alter_makes_valid (assertions : Bool) (w w' : WB) (hwf : ∀ t, w.t = .arr t → Arr.WF t)
    (h : baseValidity conv true assertions w = .ok (w', true)) : ∃ t f d, Valid w' t f d := by
  unfold baseValidity at h
  cases hr : runStmts true assertions (baseStmts conv) w 0 with
  | error e => rw [hr] at h; cases h
  | ok y =>
    obtain ⟨w2, e2⟩ := y
    rw [hr] at h
    simp only [ok_bind] at h
    by_cases h0 : e2 = 0
    · subst h0
      simp only [ne_eq, not_true_eq_false, if_false, Except.ok.injEq, Prod.mk.injEq, and_true] at h
      subst h
      exact base_run_true conv assertions w w2 hwf hr
    · simp [h0] at h

/-- C16.  A consistent waveform passes `ensure_validity(alter=True)` and is left as it is. -/
theorem base_alter_keeps_valid (assertions : Bool) (w : WB) (t f d : Arr) (hwf : Arr.WF t)
    (hv : Valid w t f d) (hnd : ∃ n, t.shape = [n]) :
    baseValidity conv true assertions w = .ok (w, true) := by
  unfold baseValidity
  rw [base_run_true_valid conv assertions w t f d hwf hv hnd]
  rfl

/-- C16, `WaveformModes` with assertions: the call returns True exactly if all conditions hold. -/
theorem modes_assertions_iff (w w' : WM) (hwf : ∀ t, w.base.t = .arr t → Arr.WF t) :
    modesValidity conv false true w = .ok (w', true) ↔
      w = w' ∧ (∃ d, ValidModes w d) ∧ ∃ t f d, Valid w.base t f d := by
  unfold modesValidity
  cases h : runStmts false true modesStmts w 0 with
  | error e =>
    rw [error_bind]
    constructor
    · intro h'; cases h'
    · rintro ⟨rfl, hm, -⟩
      rw [(modes_run_false true w w).mpr ⟨rfl, hm⟩] at h; cases h
  | ok x =>
    obtain ⟨w1, e1⟩ := x
    have e0 := run_assert _ _ _ _ _ h
    subst e0
    obtain ⟨rfl, hm⟩ := (modes_run_false true w w1).mp h
    simp only [ok_bind, ne_eq, not_true_eq_false, if_false]
    cases hb : baseValidity conv false true w.base with
    | error e =>
      have := (base_assertions_raise_iff conv w.base hwf).mp ⟨e, hb⟩
      simp [error_bind, this]
    | ok y =>
      obtain ⟨b, v⟩ := y
      have hv : ∃ t f d, Valid w.base t f d := by
        apply Classical.byContradiction
        intro hn
        obtain ⟨e, he⟩ := (base_assertions_raise_iff conv w.base hwf).mpr hn
        rw [he] at hb; cases hb
      rw [(base_true_iff conv true w.base w.base hwf).mpr ⟨rfl, hv⟩] at hb
      cases hb
      simp [ok_bind, hm, hv]

/-- C16 for `WaveformModes` without assertions, the part that holds: the result True implies the
conditions specific to modes.  Missing: the conditions on every waveform, see
`modes_ignores_base`. -/
theorem modes_true_partial (w w' : WM) (h : modesValidity conv false false w = .ok (w', true)) :
    ∃ d, ValidModes w d := by
  unfold modesValidity at h
  cases hr : runStmts false false modesStmts w 0 with
  | error e => rw [hr] at h; cases h
  | ok x =>
    obtain ⟨w1, e1⟩ := x
    rw [hr] at h
    simp only [ok_bind] at h
    by_cases h0 : e1 = 0
    · subst h0
      exact ((modes_run_false false w w1).mp hr).2
    · simp [h0] at h

/-- C16 (finding).  Without assertions, the verdict of the base class is dropped: whenever the
conditions specific to modes hold and the base class returns at all, the result is True. -/
theorem modes_ignores_base (w : WM) (d : Arr) (hm : ValidModes w d) (b : WB) (v : Bool)
    (hb : baseValidity conv false false w.base = .ok (b, v)) :
    modesValidity conv false false w = .ok ({ w with base := b }, true) := by
  unfold modesValidity
  rw [(modes_run_false false w w).mpr ⟨rfl, d, hm⟩]
  simp only [ok_bind, ne_eq, not_true_eq_false, if_false, hb]

/-- A waveform with two modes' worth of data at two equal times. -/
def badTimes : WM :=
  { base :=
      { t := .arr ⟨.float, [2], [.fin 1, .fin 1]⟩, frame := .arr ⟨.quaternion, [0], []⟩,
        data := .arr ⟨.complex, [2, 1], [.fin 1, .fin 0, .fin 1, .fin 0]⟩, history := .list [some []],
        frameType := .int 0, dataType := .int 0, rScaled := some true, mScaled := some true },
    ellMin := 0, ellMax := 0, LM := [(0, 0)] }

/-- C16 (finding).  `WaveformModes.ensure_validity(alter=False)` and so `is_valid` accept a
waveform whose times are not increasing. -/
theorem modes_accepts_bad_times :
    modesValidity conv false false badTimes = .ok (badTimes, true) ∧
      ¬ ∃ t f d, Valid badTimes.base t f d := by
  constructor
  · rfl
  · rintro ⟨t, f, d, hv⟩
    have e := hv.t_eq
    obtain ⟨q, hq, hp⟩ := hv.t_increasing
    simp only [badTimes, Attr.arr.injEq] at e
    subst e
    match q, hq with
    | [a, b], hq =>
      simp only [List.map_cons, List.map_nil, List.cons.injEq, Fl.fin.injEq, and_true] at hq
      have h := (List.pairwise_cons.mp hp).1 b (by simp)
      rw [← hq.1, ← hq.2] at h
      exact absurd h (lt_irrefl _)

/-- C16, `WaveformGrid`: with assertions, True exactly if all conditions hold. -/
theorem grid_assertions_iff (w w' : WG) (hwf : ∀ t, w.base.t = .arr t → Arr.WF t) :
    gridValidity conv false true w = .ok (w', true) ↔
      w = w' ∧ (∃ d, ValidGrid w d) ∧ ∃ t f d, Valid w.base t f d := by
  unfold gridValidity
  cases h : runStmts false true gridStmts w 0 with
  | error e =>
    rw [error_bind]
    constructor
    · intro h'; cases h'
    · rintro ⟨rfl, hm, -⟩
      rw [(grid_run false true w w).mpr ⟨rfl, hm⟩] at h; cases h
  | ok x =>
    obtain ⟨w1, e1⟩ := x
    have e0 := run_assert _ _ _ _ _ h
    subst e0
    obtain ⟨rfl, hm⟩ := (grid_run false true w w1).mp h
    simp only [ok_bind, ne_eq, not_true_eq_false, if_false]
    cases hb : baseValidity conv false true w.base with
    | error e =>
      have := (base_assertions_raise_iff conv w.base hwf).mp ⟨e, hb⟩
      simp [error_bind, this]
    | ok y =>
      obtain ⟨b, v⟩ := y
      have hv : ∃ t f d, Valid w.base t f d := by
        apply Classical.byContradiction
        intro hn
        obtain ⟨e, he⟩ := (base_assertions_raise_iff conv w.base hwf).mpr hn
        rw [he] at hb; cases hb
      rw [(base_true_iff conv true w.base w.base hwf).mpr ⟨rfl, hv⟩] at hb
      cases hb
      simp [ok_bind, hm, hv]

/-- C16 (finding), `WaveformGrid`: again the base class's verdict is dropped. -/
theorem grid_ignores_base (w : WG) (d : Arr) (hm : ValidGrid w d) (b : WB) (v : Bool)
    (hb : baseValidity conv false false w.base = .ok (b, v)) :
    gridValidity conv false false w = .ok ({ w with base := b }, true) := by
  unfold gridValidity
  rw [(grid_run false false w w).mpr ⟨rfl, d, hm⟩]
  simp only [ok_bind, ne_eq, not_true_eq_false, if_false, hb]

/-- C16 (finding).  A `t` of shape (0, 3) is accepted. -/
theorem base_accepts_empty_2d :
    baseValidity conv false false
      { badTimes.base with t := .arr ⟨.float, [0, 3], []⟩, data := .arr ⟨.complex, [0, 1], []⟩ } =
      .ok ({ badTimes.base with t := .arr ⟨.float, [0, 3], []⟩, data := .arr ⟨.complex, [0, 1], []⟩ },
        true) := by
  rfl

/-- The same waveform with increasing times. -/
def good : WM := { badTimes with base := { badTimes.base with t := .arr ⟨.float, [2], [.fin 1, .fin 2]⟩ } }

theorem good_valid : (∃ d, ValidModes good d) ∧ ∃ t f d, Valid good.base t f d := by
  have hwf : ∀ t, good.base.t = .arr t → Arr.WF t := by
    intro t h; cases h; rfl
  exact ((modes_assertions_iff (fun _ => none) good good hwf).mp (by
    simp only [modesValidity, baseValidity, modesStmts, baseStmts, runStmts, good, badTimes, test, ok_bind,
      Attr.get, Attr.isArr, pure_eq_ok, Arr.increasing]
    rfl)).2

end Verif.Props.Validity
