import Verif.Lemmas.Slicing
import Mathlib.Tactic.Set

/-!
# C17: slicing a `WaveformModes`
-/

namespace Verif.Props.Slicing
open Verif.Slicing Verif.Spec.Slicing Verif.Modes
variable {τ Q K : Type}

/-- C17.  `W[s]` for any slice with a non-zero step: the selected times with their own frame and
all modes, and the result is again consistent. -/
theorem getitem_time (W : WM τ Q K) (hW : Valid W) (s : PySlice) (hs : s.step ≠ some 0) :
    ∃ idx V, s.positions W.t.length = .ok idx ∧ getitem W (.single (.slice s)) = .ok V ∧
      Restricts W V idx W.ellMin W.ellMax ∧ Valid V := by
  obtain ⟨idx, hidx⟩ : ∃ idx, s.positions W.t.length = .ok idx := by
    unfold PySlice.positions
    have : s.step.getD 1 ≠ 0 := by
      cases h : s.step with
      | none => simp
      | some v => intro h'; simp at h'; rw [h'] at h; exact hs h
    simp only
    rw [if_neg this]
    split <;> exact ⟨_, rfl⟩
  have hmodes := hW.modes
  have hm := hW.min
  have hM := hW.max
  have hval : getitem W (.single (.slice s)) =
      .ok { W with t := gather W.t idx, frame := gather W.frame idx, data := gather W.data idx } := by
    show (do let V ← sliceArrays W (.slice s) none; setElls V W.ellMin W.ellMax) = _
    rw [sliceArrays_none W hW s idx hidx, ok_bind]
    unfold setElls
    rw [if_neg (by omega)]
  refine ⟨idx, _, hidx, hval, ?_⟩
  have := restricted W hW s idx hidx W.ellMin W.ellMax (le_refl _) hM 0 W.nCols
    (by simp) hmodes (by omega)
  have hdata : (gather W.data idx).map (gather · (List.range' 0 W.nCols)) = gather W.data idx := by
    conv_rhs => rw [← List.map_id (gather W.data idx)]
    apply List.map_congr_left
    intro r hr
    have : r ∈ W.data := by
      unfold gather at hr
      obtain ⟨i, _, hi⟩ := List.mem_filterMap.mp hr
      exact List.mem_of_getElem? hi
    have := hW.cols _ this
    rw [gather_range' r 0 W.nCols (by omega)]
    simp [← this]
  simp only [hdata] at this
  exact this

/-- C17.  With unit step the selected times are the clamped interval `[lo, hi)`, where negative
bounds count from the end. -/
theorem getitem_time_interval (W : WM τ Q K) (hW : Valid W) (start stop : Option Int) :
    ∃ (lo hi : Nat) (V : WM τ Q K), getitem W (.single (.slice ⟨start, stop, none⟩)) = .ok V ∧
      (lo : Int) = resolveBound W.t.length 0 W.t.length 0 start ∧
      (hi : Int) = resolveBound W.t.length 0 W.t.length W.t.length stop ∧
      V.t = (W.t.drop lo).take (hi - lo) ∧ V.frame = (W.frame.drop lo).take (hi - lo) ∧
      V.data = (W.data.drop lo).take (hi - lo) := by
  obtain ⟨a, b, ha, hb, e1, e2, hp⟩ := positions_unit W.t.length start stop none (Or.inl rfl)
  have hm := hW.modes
  refine ⟨a, b, ⟨gather W.t (List.range' a (b - a)), gather W.frame (List.range' a (b - a)),
    gather W.data (List.range' a (b - a)), W.nCols, W.ellMin, W.ellMax⟩, ?_, e1.symm, e2.symm, ?_, ?_, ?_⟩
  · show (do let V ← sliceArrays W (.slice _) none; setElls V W.ellMin W.ellMax) = _
    rw [sliceArrays_none W hW _ _ hp, ok_bind]
    unfold setElls
    rw [if_neg (by omega)]
  · by_cases h : a ≤ b
    · exact gather_range' _ _ _ (by omega)
    · rw [show b - a = 0 by omega]; simp [gather]
  · have := hW.frame
    by_cases h : a ≤ b
    · exact gather_range' _ _ _ (by omega)
    · rw [show b - a = 0 by omega]; simp [gather]
  · have := hW.rows
    by_cases h : a ≤ b
    · exact gather_range' _ _ _ (by omega)
    · rw [show b - a = 0 by omega]; simp [gather]

/-- The ell bound a user writes: absent or a non-zero number. -/
def Given (v : Option Int) : Prop := v ≠ some 0

theorem not_falsy {v : Option Int} {x : Int} (h : v = some x) (hx : x ≠ 0) : falsy v = false := by
  subst h; simp [falsy, hx]

/-- C17 (partial).  `W[s, l1:l2]` for non-zero (or absent) bounds inside the available range, on
an object with at least two modes: exactly the selected times and the modes
`l1 ≤ ell < l2`, and the result is consistent.  Missing with respect to the full claim: bounds
equal to 0 and objects with one mode, see the theorems below. -/
theorem getitem_time_ell_partial (W : WM τ Q K) (hW : Valid W) (hn : 2 ≤ W.nCols) (s : PySlice)
    (hs : s.step ≠ some 0) (l1 l2 : Option Int) (h1 : Given l1) (h2 : Given l2)
    (hle : W.ellMin ≤ l1.getD W.ellMin) (hlt : l1.getD W.ellMin ≤ l2.getD (W.ellMax + 1))
    (hge : l2.getD (W.ellMax + 1) ≤ W.ellMax + 1) :
    ∃ idx V, s.positions W.t.length = .ok idx ∧
      getitem W (.tuple [.slice s, .slice ⟨l1, l2, none⟩]) = .ok V ∧
      Restricts W V idx (l1.getD W.ellMin) (l2.getD (W.ellMax + 1) - 1) ∧ Valid V := by
  obtain ⟨idx, hidx⟩ : ∃ idx, s.positions W.t.length = .ok idx := by
    unfold PySlice.positions
    have : s.step.getD 1 ≠ 0 := by
      cases h : s.step with
      | none => simp
      | some v => intro h'; simp at h'; rw [h'] at h; exact hs h
    simp only
    rw [if_neg this]
    split <;> exact ⟨_, rfl⟩
  have hm := hW.min
  have hM := hW.max
  set lo := l1.getD W.ellMin with hlo
  set hi := l2.getD (W.ellMax + 1) - 1 with hhi
  have hrange : ellRange W.ellMin W.ellMax (.slice ⟨l1, l2, none⟩) =
      .ok (lo, hi, ⟨some (lo ^ 2 - W.ellMin ^ 2), some (hi * (hi + 2) + 1 - W.ellMin ^ 2), none⟩) := 
    ellRange_slice _ _ l1 l2 h1 h2 hle hge
  obtain ⟨a, n, ha, hn', hle', hcols⟩ := cols_spec W hW lo hi hle (by omega) (by omega)
  have hr := restricted W hW s idx hidx lo hi hle (by omega) a n ha hn' hle'
  refine ⟨idx, _, hidx, ?_, hr⟩
  show (do
    let (newMin, newMax, c) ← ellRange W.ellMin W.ellMax (.slice ⟨l1, l2, none⟩)
    let V ← baseGetitem2 W (.slice s) c
    setElls V newMin newMax) = _
  rw [hrange, ok_bind]
  simp only [baseGetitem2, if_pos hn]
  rw [sliceArrays_some W hW s _ idx _ hidx hcols, ok_bind]
  unfold setElls
  rw [if_neg (by omega)]
  simp

/-- C17.  A single ell. -/
theorem getitem_single_ell (W : WM τ Q K) (hW : Valid W) (hn : 2 ≤ W.nCols) (s : PySlice)
    (hs : s.step ≠ some 0) (ell : Int) (h1 : W.ellMin ≤ ell) (h2 : ell ≤ W.ellMax) :
    ∃ idx V, s.positions W.t.length = .ok idx ∧
      getitem W (.tuple [.slice s, .int ell]) = .ok V ∧ Restricts W V idx ell ell ∧ Valid V := by
  obtain ⟨idx, hidx⟩ : ∃ idx, s.positions W.t.length = .ok idx := by
    unfold PySlice.positions
    have : s.step.getD 1 ≠ 0 := by
      cases h : s.step with
      | none => simp
      | some v => intro h'; simp at h'; rw [h'] at h; exact hs h
    simp only
    rw [if_neg this]
    split <;> exact ⟨_, rfl⟩
  have hm := hW.min
  obtain ⟨a, n, ha, hn', hle', hcols⟩ := cols_spec W hW ell ell h1 (by omega) h2
  have hr := restricted W hW s idx hidx ell ell h1 (by omega) a n ha hn' hle'
  refine ⟨idx, _, hidx, ?_, hr⟩
  have hrange : ellRange W.ellMin W.ellMax (.int ell) = .ok (ell, ell,
      ⟨some (ell ^ 2 - W.ellMin ^ 2), some (ell * (ell + 2) + 1 - W.ellMin ^ 2), none⟩) :=
    ellRange_int _ _ _ h1 h2
  show (do
    let (newMin, newMax, c) ← ellRange W.ellMin W.ellMax (.int ell)
    let V ← baseGetitem2 W (.slice s) c
    setElls V newMin newMax) = _
  rw [hrange, ok_bind]
  simp only [baseGetitem2, if_pos hn]
  rw [sliceArrays_some W hW s _ idx _ hidx hcols, ok_bind]
  unfold setElls
  rw [if_neg (by omega)]
  simp

/-- C17.  `W[s, :0]` keeps the times and frame and has no modes, with `ells = (0, -1)`. -/
theorem getitem_no_modes (W : WM τ Q K) (hW : Valid W) (hn : 2 ≤ W.nCols) (s : PySlice)
    (idx : List Nat) (hidx : s.positions W.t.length = .ok idx) :
    getitem W (.tuple [.slice s, .slice ⟨none, some 0, none⟩]) =
      .ok { t := gather W.t idx, frame := gather W.frame idx,
            data := (gather W.data idx).map fun _ => [], nCols := 0, ellMin := 0, ellMax := -1 } := by
  have hc : (PySlice.mk none (some 0) none).positions W.nCols = .ok [] := by
    obtain ⟨a, b, _, _, e1, e2, hp⟩ := positions_unit W.nCols none (some 0) none (Or.inl rfl)
    have : b = 0 := by simp [resolveBound] at e2; omega
    rw [hp, this]; simp
  show (do
    let (newMin, newMax, c) ← ellRange W.ellMin W.ellMax (.slice ⟨none, some 0, none⟩)
    let V ← baseGetitem2 W (.slice s) c
    setElls V newMin newMax) = _
  have hr : ellRange W.ellMin W.ellMax (.slice ⟨none, some 0, none⟩) = .ok (0, -1, ⟨none, some 0, none⟩) := rfl
  rw [hr, ok_bind]
  simp only [baseGetitem2, if_pos hn]
  rw [sliceArrays_some W hW s _ idx _ hidx hc, ok_bind]
  rfl

/-- C17.  An ell request outside the available range is refused. -/
theorem getitem_ell_outside (W : WM τ Q K) (k : Sub) :
    (∀ ell, ell < W.ellMin ∨ W.ellMax < ell →
      getitem W (.tuple [k, .int ell]) = .error .valueError) ∧
    (∀ l1 l2 : Int, l1 ≠ 0 → l2 ≠ 0 → l1 < W.ellMin ∨ W.ellMax + 1 < l2 →
      getitem W (.tuple [k, .slice ⟨some l1, some l2, none⟩]) = .error .valueError) := by
  constructor
  · intro ell h
    have hr : ellRange W.ellMin W.ellMax (.int ell) = .error .valueError := if_pos (by omega)
    show (do
      let (newMin, newMax, c) ← ellRange W.ellMin W.ellMax (.int ell)
      let V ← baseGetitem2 W k c
      setElls V newMin newMax) = _
    rw [hr]
    rfl
  · intro l1 l2 n1 n2 h
    have f1 : falsy (some l1) = false := not_falsy rfl n1
    have f2 : falsy (some l2) = false := not_falsy rfl n2
    have hr : ellRange W.ellMin W.ellMax (.slice ⟨some l1, some l2, none⟩) = .error .valueError := by
      have : ellRange W.ellMin W.ellMax (.slice ⟨some l1, some l2, none⟩) =
        (if (falsy (some l1) && some l2 == some 0) = true then .ok (0, -1, ⟨none, some 0, none⟩)
        else
          if (if falsy (some l1) = true then W.ellMin else l1) < W.ellMin ∨
              (if falsy (some l2) = true then W.ellMax else l2 - 1) > W.ellMax then .error .valueError
          else .ok ((if falsy (some l1) = true then W.ellMin else l1),
            (if falsy (some l2) = true then W.ellMax else l2 - 1),
            ⟨some ((if falsy (some l1) = true then W.ellMin else l1) ^ 2 - W.ellMin ^ 2),
             some ((if falsy (some l2) = true then W.ellMax else l2 - 1) *
              ((if falsy (some l2) = true then W.ellMax else l2 - 1) + 2) + 1 - W.ellMin ^ 2),
             none⟩)) := rfl
      rw [this, f1, f2]
      simp only [Bool.false_and, Bool.false_eq_true, if_false]
      exact if_pos (by omega)
    show (do
      let (newMin, newMax, c) ← ellRange W.ellMin W.ellMax (.slice ⟨some l1, some l2, none⟩)
      let V ← baseGetitem2 W k c
      setElls V newMin newMax) = _
    rw [hr]
    rfl

/-- C17.  A step in the ell direction, and every key that is not a slice, a pair, or an integer,
is refused. -/
theorem getitem_refuses (W : WM τ Q K) :
    (∀ k l1 l2 (st : Int), st ≠ 0 → st ≠ 1 →
      getitem W (.tuple [k, .slice ⟨l1, l2, some st⟩]) = .error .valueError) ∧
    (∀ k, getitem W (.tuple [k, .other]) = .error .valueError) ∧
    getitem W (.single .other) = .error .valueError ∧ getitem W (.tuple []) = .error .valueError ∧
    (∀ a b c l, getitem W (.tuple (a :: b :: c :: l)) = .error .valueError) := by
  refine ⟨?_, fun _ => rfl, rfl, rfl, fun _ _ _ _ => rfl⟩
  intro k l1 l2 st h0 h1
  show (do let (a, b, c) ← ellRange W.ellMin W.ellMax (.slice ⟨l1, l2, some st⟩); _) = _
  unfold ellRange
  simp [falsy, h0, h1, error_bind]

/-- C17.  A 1-tuple is the same as its element. -/
theorem getitem_one_tuple (W : WM τ Q K) (k : Sub) :
    getitem W (.tuple [k]) = getitem W (.single k) := by
  cases k <;> rfl

/-- C17 (finding).  `W[i]` with an integer, documented as "data from a single instant", always
raises `IndexError`. -/
theorem getitem_int_raises (W : WM τ Q K) (i : Int) :
    getitem W (.single (.int i)) = .error .indexError := by
  show (do let V ← sliceArrays W (.int i) none; setElls V W.ellMin W.ellMax) = _
  have key : ∀ {α : Type} (l : List α), (∃ x, pyGet l i = .ok x) ∨ pyGet l i = .error .indexError := by
    intro α l
    unfold pyGet
    dsimp only
    generalize (if i < 0 then i + (l.length : Int) else i) = j
    repeat' split
    all_goals first | exact Or.inr rfl | exact Or.inl ⟨_, rfl⟩
  unfold sliceArrays
  simp only
  rcases key W.t with ⟨x, h⟩ | h <;> rw [h]
  · rw [ok_bind]
    rcases key W.frame with ⟨y, h⟩ | h <;> rw [h]
    · rw [ok_bind]
      rcases key W.data with ⟨z, h⟩ | h <;> rw [h] <;> rfl
    · rfl
  · rfl

/-- C17 (finding).  An upper ell bound of 0 after a non-zero lower bound is taken for "no bound":
`W[:, 2:0]`, an empty range, returns every mode. -/
theorem getitem_stop_zero (W : WM τ Q K) (k : Sub) (l1 : Int) (h : l1 ≠ 0) :
    getitem W (.tuple [k, .slice ⟨some l1, some 0, none⟩]) =
      getitem W (.tuple [k, .slice ⟨some l1, none, none⟩]) := by
  show (do let (a, b, c) ← ellRange W.ellMin W.ellMax (.slice ⟨some l1, some 0, none⟩); _) =
    (do let (a, b, c) ← ellRange W.ellMin W.ellMax (.slice ⟨some l1, none, none⟩); _)
  have : ellRange W.ellMin W.ellMax (.slice ⟨some l1, some 0, none⟩) =
      ellRange W.ellMin W.ellMax (.slice ⟨some l1, none, none⟩) := by
    unfold ellRange
    simp [falsy, h]
  rw [this]

/-- C17 (finding).  A lower ell bound of 0 is taken for "no bound", so a request that starts
below the available range is not refused. -/
theorem getitem_start_zero (W : WM τ Q K) (k : Sub) (l2 : Int) (h : l2 ≠ 0) :
    getitem W (.tuple [k, .slice ⟨some 0, some l2, none⟩]) =
      getitem W (.tuple [k, .slice ⟨none, some l2, none⟩]) := by
  show (do let (a, b, c) ← ellRange W.ellMin W.ellMax (.slice ⟨some 0, some l2, none⟩); _) =
    (do let (a, b, c) ← ellRange W.ellMin W.ellMax (.slice ⟨none, some l2, none⟩); _)
  have : ellRange W.ellMin W.ellMax (.slice ⟨some 0, some l2, none⟩) =
      ellRange W.ellMin W.ellMax (.slice ⟨none, some l2, none⟩) := by
    unfold ellRange
    simp [falsy, h]
  rw [this]

/-- C17 (finding).  An object with fewer than two columns cannot be sliced in ell at all. -/
theorem getitem_few_modes (W : WM τ Q K) (h : W.nCols < 2) (k : Sub) (s : PySlice) :
    ∃ e, getitem W (.tuple [k, .slice s]) = .error e := by
  show ∃ e, (do
    let (newMin, newMax, c) ← ellRange W.ellMin W.ellMax (.slice s)
    let V ← baseGetitem2 W k c
    setElls V newMin newMax) = .error e
  cases hr : ellRange W.ellMin W.ellMax (.slice s) with
  | error e => exact ⟨e, rfl⟩
  | ok p =>
    rw [ok_bind]
    simp only [baseGetitem2]
    rw [if_neg (by omega)]
    exact ⟨_, rfl⟩

/-- C17 (finding).  A constant frame (one rotor for all times) is lost when the slice does not
start at time 0: the result has no frame at all although the original had one. -/
theorem getitem_constant_frame_lost (W : WM τ Q K) (q : Q) (hf : W.frame = [q])
    (hd : W.data.length = W.t.length) (a : Nat) (ha : 1 ≤ a)
    (hsize : 0 ≤ (W.ellMax + 1) ^ 2 - W.ellMin ^ 2) :
    ∃ V, getitem W (.single (.slice ⟨some a, none, none⟩)) = .ok V ∧ V.frame = [] := by
  obtain ⟨a1, b1, h1, h1', h2, h3, h4⟩ := positions_unit W.t.length (some a) none none (Or.inl rfl)
  obtain ⟨a2, b2, g1, g1', g2, g3, g4⟩ := positions_unit W.frame.length (some a) none none (Or.inl rfl)
  have e : W.frame.length = 1 := by rw [hf]; rfl
  have hz : b2 - a2 = 0 := by
    rw [e] at g2 g3
    simp only [resolveBound] at g2 g3
    rw [if_neg (by omega)] at g2
    omega
  refine ⟨⟨gather W.t (List.range' a1 (b1 - a1)), [], gather W.data (List.range' a1 (b1 - a1)),
    W.nCols, W.ellMin, W.ellMax⟩, ?_, rfl⟩
  show (do let V ← sliceArrays W (.slice _) none; setElls V W.ellMin W.ellMax) = _
  unfold sliceArrays pySlice
  simp only [hd, h4, g4, hz, ok_bind, pure_eq_ok]
  unfold setElls
  simp only [gather]
  rw [if_neg (by omega)]
  rfl

/-- A small waveform (two times, ell = 1 and 2) used to show that the hypotheses can be met. -/
def sample : WM Nat Nat Nat :=
  ⟨[10, 20, 30], [1, 2, 3], [[0, 1, 2, 3, 4, 5, 6, 7], [10, 11, 12, 13, 14, 15, 16, 17],
    [20, 21, 22, 23, 24, 25, 26, 27]], 8, 1, 2⟩

example : Valid sample := ⟨rfl, rfl, by decide, by decide, by decide, by decide⟩
example : getitem sample (.tuple [.slice ⟨some (-2), none, none⟩, .slice ⟨some 2, some 3, none⟩]) =
    .ok ⟨[20, 30], [2, 3], [[13, 14, 15, 16, 17], [23, 24, 25, 26, 27]], 5, 2, 2⟩ := by decide
example : getitem sample (.single (.slice ⟨none, none, some (-2)⟩)) =
    .ok ⟨[30, 10], [3, 1], [[20, 21, 22, 23, 24, 25, 26, 27], [0, 1, 2, 3, 4, 5, 6, 7]], 8, 1, 2⟩ := by
  decide
-- The finding on `2:0`, concretely: the modes of ell = 2 come back instead of none.
example : ∃ V, getitem sample (.tuple [.slice ⟨none, none, none⟩, .slice ⟨some 2, some 0, none⟩]) =
    .ok V ∧ V.nCols = 5 := ⟨_, rfl, rfl⟩

end Verif.Props.Slicing
