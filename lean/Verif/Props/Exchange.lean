import Verif.Model.Exchange
import Verif.Props.Validity
import Verif.Model.Objects

/-!
# C85: the exchange with `sxs.WaveformModes`
-/

namespace Verif.Props.Exchange
open Verif Verif.Validity Verif.DataTypes Verif.Exchange Verif.Spec.Validity

/-! ## Specification -/

/-- The rotor that an array of quaternions gives for time `i`: the identity if there are none, the same one at all times if there is one. -/
def rotorAt (f : Arr) (i : Nat) : List Fl :=
  if f.size = 0 then [.fin 1, .fin 0, .fin 0, .fin 0] else if f.size = 1 then f.comps else (f.comps.drop (4 * i)).take 4

/-! ## Proofs -/

theorem data_names : ∀ k : Fin 11, (dataNames.map lower).idxOf (lower (lower (dataNames[k.1]'(k.2)))) = k.1 := by decide
theorem data_names_mem : ∀ k : Fin 11, lower (lower (dataNames[k.1]'(k.2))) ∈ dataNames.map lower := by decide
theorem frame_names : ∀ k : Fin 5, (frameNames.map lower).idxOf (lower (lower (frameNames[k.1]'(k.2)))) = k.1 := by decide
theorem frame_names_mem : ∀ k : Fin 5, lower (lower (frameNames[k.1]'(k.2))) ∈ frameNames.map lower := by decide

theorem data_type_round (z : Int) (h0 : 0 ≤ z) (h : z < 11) : ∃ s, nameOf dataNames (.int z) = .ok s ∧ typeOf dataNames (lower s) = .int z := by
  obtain ⟨k, rfl⟩ := Int.eq_ofNat_of_zero_le h0
  have hk : k < 11 := by omega
  refine ⟨dataNames[k]'hk, ?_, ?_⟩
  · unfold nameOf Verif.pyGet
    have : k < dataNames.length := hk
    simp only [show ¬ ((k : Int) < 0) by omega, if_false, Int.toNat_natCast, List.getElem?_eq_getElem this]
    rfl
  · unfold typeOf
    rw [if_pos (data_names_mem ⟨k, hk⟩), data_names ⟨k, hk⟩]

theorem frame_type_round (z : Int) (h0 : 0 ≤ z) (h : z < 5) : ∃ s, nameOf frameNames (.int z) = .ok s ∧ typeOf frameNames (lower s) = .int z := by
  obtain ⟨k, rfl⟩ := Int.eq_ofNat_of_zero_le h0
  have hk : k < 5 := by omega
  refine ⟨frameNames[k]'hk, ?_, ?_⟩
  · unfold nameOf Verif.pyGet
    have : k < frameNames.length := hk
    simp only [show ¬ ((k : Int) < 0) by omega, if_false, Int.toNat_natCast, List.getElem?_eq_getElem this]
    rfl
  · unfold typeOf
    rw [if_pos (frame_names_mem ⟨k, hk⟩), frame_names ⟨k, hk⟩]

theorem identity_iff (a : Arr) : isIdentity a = true ↔ a.shape = [1, 4] ∧ a.comps = [.fin 1, .fin 0, .fin 0, .fin 0] := by
  unfold isIdentity
  rw [Bool.and_eq_true, decide_eq_true_eq]
  refine and_congr_right fun _ => ?_
  split
  · rename_i w x y z h
    rw [h, decide_eq_true_eq]
    simp
  · rename_i h
    constructor
    · intro c; cases c
    · intro c; exact absurd c (h 1 0 0 0)

/-- The frame that comes back. -/
theorem frame_round (f : Arr) (n : Nat) (hd : f.dtype = .quaternion) (hs : f.size = 0 ∨ f.size = 1 ∨ f.size = n) (h1 : f.ndim ≤ 1) (hw : Arr.WF f) :
    ∃ a g, frameOut f n = .ok a ∧ frameIn (a.getD ⟨.float, [1, 4], [.fin 1, .fin 0, .fin 0, .fin 0]⟩) n = .ok g ∧ g.dtype = .quaternion ∧ (g.size = f.size ∨ g.size = 0) ∧
      (g = f ∨ g.comps = [] ∧ (f.size = 0 ∨ f.comps = [.fin 1, .fin 0, .fin 0, .fin 0])) ∧ ∀ i, rotorAt g i = rotorAt f i := by
  obtain ⟨dt, sh, co⟩ := f
  simp only at hd
  subst hd
  have hshape : sh = [] ∨ ∃ k, sh = [k] := by
    unfold Arr.ndim at h1
    match sh, h1 with
    | [], _ => exact .inl rfl
    | [k], _ => exact .inr ⟨k, rfl⟩
    | _ :: _ :: _, h => simp at h
  rcases hshape with rfl | ⟨k, rfl⟩
  · have e : frameOut ⟨.quaternion, [], co⟩ n = .ok (some ⟨.float, [1, 4], co⟩) := rfl
    by_cases c : co = [.fin 1, .fin 0, .fin 0, .fin 0]
    · subst c
      exact ⟨_, ⟨.quaternion, [0], []⟩, e, if_pos ((identity_iff _).mpr ⟨rfl, rfl⟩), rfl, .inr rfl, .inr ⟨rfl, .inr rfl⟩, fun i => rfl⟩
    · refine ⟨_, ⟨.quaternion, [], co⟩, e, ?_, rfl, .inl rfl, .inl rfl, fun i => rfl⟩
      unfold frameIn
      rw [if_neg (by rw [identity_iff]; exact fun h => c h.2)]
      rfl
  · have sz : Arr.size ⟨.quaternion, [k], co⟩ = k := by simp [Arr.size]
    rw [sz] at hs
    by_cases c1 : k = 1
    · subst c1
      have e : frameOut ⟨.quaternion, [1], co⟩ n = .ok (some ⟨.float, [1, 1, 4], co⟩) := rfl
      refine ⟨_, ⟨.quaternion, [1], co⟩, e, ?_, rfl, .inl rfl, .inl rfl, fun i => rfl⟩
      unfold frameIn
      rw [if_neg (by rw [identity_iff]; exact fun h => by simp at h)]
      rfl
    · by_cases c2 : k = n
      · subst c2
        have e : frameOut ⟨.quaternion, [k], co⟩ k = .ok (some ⟨.float, [k, 4], co⟩) := by
          unfold frameOut
          rw [sz, if_neg c1, if_pos rfl]
          rfl
        refine ⟨_, ⟨.quaternion, [k], co⟩, e, ?_, rfl, .inl rfl, .inl rfl, fun i => rfl⟩
        unfold frameIn
        rw [if_neg (by rw [identity_iff]; exact fun h => c1 (by simpa using h.1))]
        show (match [k, 4] with
          | [] => .error .indexError
          | 1 :: rest => .ok (asQuat ⟨.float, rest, co⟩)
          | m :: _ => if m = k then .ok (asQuat ⟨.float, [k, 4], co⟩) else .error .nameError : Py Arr) = _
        split
        · rename_i h; cases h
        · rename_i h; injection h with h _; exact absurd h c1
        · rename_i h; injection h with h _; rw [if_pos h.symm]; rfl
      · have c0 : k = 0 := by omega
        subst c0
        have e : frameOut ⟨.quaternion, [0], co⟩ n = .ok none := by
          unfold frameOut
          rw [sz, if_neg c1, if_neg c2]
          rfl
        refine ⟨_, ⟨.quaternion, [0], []⟩, e, if_pos ((identity_iff _).mpr ⟨rfl, rfl⟩), rfl, .inl rfl, .inr ⟨rfl, .inl sz⟩, fun i => rfl⟩

theorem modes_alter_keeps_valid (conv : Arr → Option Attr) (a : Bool) (w : WM) (t f d d' : Arr) (hwf : Arr.WF t) (hm : ValidModes w d') (hv : Valid w.base t f d) (hnd : ∃ n, t.shape = [n]) :
    modesValidity conv true a w = .ok (w, true) := by
  have hl : lmRange w.ellMin w.ellMax = .ok w.LM := by
    unfold lmRange
    rw [if_neg, hm.LM]
    obtain ⟨n, k, rest, -, hk⟩ := hm.shape
    omega
  have hr : runStmts true a modesStmts w 0 = .ok (w, 0) := by
    unfold modesStmts
    simp only [Validity.run_check, Validity.run_alter_true, Validity.run_nil]
    obtain ⟨n, k, rest, hs, hk⟩ := hm.shape
    have hlen : w.LM.length = k := by
      have := Props.Modes.LM_length w.ellMin w.ellMax hm.ellMin (by have := hm.ellMax; omega)
      rw [hm.LM]; omega
    refine ⟨by rw [decide_eq_true hm.ellMin], by rw [decide_eq_true (by have := hm.ellMax; omega)], w, ?_, ?_, ?_, ?_, ?_, rfl⟩
    · unfold alterLM
      rw [hl, ok_bind, if_neg (by simp)]
    · rw [hl, ok_bind]; simp; rfl
    · rw [hm.data, Validity.get_arr, ok_bind, hm.dtype]; rfl
    · rw [hm.data, Validity.get_arr, ok_bind]; simp [Arr.ndim, hs]; rfl
    · rw [hm.data, Validity.get_arr, ok_bind]; simp [Arr.dim, hs, hlen, ok_bind]
  unfold modesValidity
  rw [hr, ok_bind]
  simp only [ne_eq, not_true_eq_false, if_false]
  rw [Props.Validity.base_alter_keeps_valid conv a w.base t f d hwf hv hnd, ok_bind]

/-- The object that is made from `W`. -/
def out (W : Wave) (a : Option Arr) (sd sf : List Char) : Sxs where
  time := W.w.base.t
  data := W.w.base.data
  frame := a
  dataType := lower sd
  frameType := lower sf
  history := some W.w.base.history
  versionHist := some W.versionHist
  rScaled := some W.w.base.rScaled
  mScaled := some W.w.base.mScaled
  ellMin := W.w.ellMin
  ellMax := W.w.ellMax
  modifications := modifications W

/-- The waveform that is made from that object. -/
def back (W : Wave) (g : Arr) (l : List (Option (List Char))) (zf zd : Int) : Wave where
  w := ⟨⟨W.w.base.t, .arr g, W.w.base.data, .list l, .int zf, .int zd, W.w.base.rScaled, W.w.base.mScaled⟩, W.w.ellMin, W.w.ellMax, W.w.LM⟩
  versionHist := W.versionHist
  radii := none
  translation := none
  boost := none

/-- C85.  A consistent waveform, taken to the other class and back, has the same times, modes, types, flags and versions, the same rotors at all times, and the same history up to the lines that are
added to it.  The frame itself is the same unless it is the identity, which may come back as no frame. -/
theorem round_trip (conv : Arr → Option Attr) (override : Bool) (line closing : List (List Char)) (W : Wave) (t f d : Arr) (hwf : Arr.WF t) (hff : Arr.WF f) (hm : ValidModes W.w d)
    (hv : Valid W.w.base t f d) (n : Nat) (hnd : t.shape = [n]) (hf : f.ndim ≤ 1) :
    ∃ s W' g, toSxs W = .ok s ∧ fromSxs conv override line closing s = .ok W' ∧
      W'.w.base.t = W.w.base.t ∧ W'.w.base.data = W.w.base.data ∧ W'.w.base.dataType = W.w.base.dataType ∧ W'.w.base.frameType = W.w.base.frameType ∧
      W'.w.base.rScaled = W.w.base.rScaled ∧ W'.w.base.mScaled = W.w.base.mScaled ∧ W'.w.ellMin = W.w.ellMin ∧ W'.w.ellMax = W.w.ellMax ∧ W'.w.LM = W.w.LM ∧ W'.versionHist = W.versionHist ∧
      W'.w.base.frame = .arr g ∧ (∀ i, rotorAt g i = rotorAt f i) ∧ (g = f ∨ g.comps = [] ∧ (f.size = 0 ∨ f.comps = [.fin 1, .fin 0, .fin 0, .fin 0])) ∧
      ∃ l, W.w.base.history = .list l ∧ W'.w.base.history = .list (l ++ line.map some ++ closing.map some) := by
  obtain ⟨zd, ed, d0, d1⟩ := hv.dataType
  obtain ⟨zf, ef, f0, f1⟩ := hv.frameType
  obtain ⟨sd, hsd, hsd'⟩ := data_type_round zd d0 d1
  obtain ⟨sf, hsf, hsf'⟩ := frame_type_round zf f0 f1
  have hts : t.size = n := by simp [Arr.size, hnd]
  obtain ⟨a, g, ha, hg, gd, gs, ge, gr⟩ := frame_round f n hv.f_dtype (by have := hv.f_size; rwa [hts] at this) hf hff
  obtain ⟨h0, hl, hh⟩ := hv.history
  have e1 : toSxs W = .ok (out W a sd sf) := by
    unfold toSxs
    rw [ed, hsd, ok_bind, ef, hsf, ok_bind, hv.frame_eq, Validity.get_arr, ok_bind, show W.w.base.t.get = .ok t by rw [hv.t_eq]; rfl, ok_bind, show t.dim 0 = .ok n by simp [Arr.dim, hnd], ok_bind, ha, ok_bind]
    rfl
  have e2 : fromSxs conv override line closing (out W a sd sf) =
      .ok (back W g (some h0 :: hl ++ line.map some ++ closing.map some) zf zd) := by
    have hl' : lmRange W.w.ellMin W.w.ellMax = .ok W.w.LM := by
      unfold lmRange
      rw [if_neg, hm.LM]
      obtain ⟨n, k, rest, -, hk⟩ := hm.shape
      omega
    have hval : modesValidity conv true (!override) (back W g (some h0 :: hl ++ line.map some) zf zd).w = .ok ((back W g (some h0 :: hl ++ line.map some) zf zd).w, true) := by
      refine modes_alter_keeps_valid conv (!override) _ t g d d hwf ⟨hm.ellMin, hm.ellMax, hm.LM, hm.data, hm.dtype, hm.shape⟩ ?_ ⟨n, hnd⟩
      refine ⟨hv.t_eq, rfl, hv.data_eq, hv.t_dtype, hv.t_finite, hv.t_shape, hv.t_increasing, gd, ?_, ?_, hv.d_finite, hv.d_shape, ⟨h0, hl ++ line.map some, rfl⟩, ⟨zf, rfl, f0, f1⟩, ⟨zd, rfl, d0, d1⟩,
        hv.rScaled, hv.mScaled⟩
      · rcases ge with rfl | ⟨ge, -⟩
        · exact hv.f_finite
        · intro x hx; rw [ge] at hx; cases hx
      · rcases gs with gs | gs
        · rw [gs]; exact hv.f_size
        · exact .inl gs
    unfold fromSxs construct
    simp only [out, show W.w.base.t.get = .ok t by rw [hv.t_eq]; rfl, ok_bind, hts, Sxs.frameArr, hg, hl', historyIn, hh, appended, hsd', hsf', Option.getD_some]
    unfold back at hval
    rw [hval]
    rfl
  refine ⟨_, _, g, e1, e2, rfl, rfl, ed.symm, ef.symm, rfl, rfl, rfl, rfl, rfl, rfl, rfl, gr, ge, _, hh, rfl⟩

/-- C85.  The names of the types are recognised in upper and lower case; other names give the unknown type. -/
theorem type_names (names : List (List Char)) (s s' : List Char) (h : lower s = lower s') : typeOf names s = typeOf names s' := by unfold typeOf; rw [h]

theorem unknown_name (names : List (List Char)) (s : List Char) (h : ∀ x ∈ names, lower x ≠ lower s) : typeOf names s = .int 0 := by
  unfold typeOf
  rw [if_neg]
  rw [List.mem_map]
  rintro ⟨x, hx, e⟩
  exact h x hx e

/-- C85.  `to_sxs` raises a `ValueError` for a number of rotors that is not 0, 1 or the number of times. -/
theorem frame_rejected (f : Arr) (n : Nat) (h0 : f.size ≠ 0) (h1 : f.size ≠ 1) (h2 : f.size ≠ n) : frameOut f n = .error .valueError := by
  unfold frameOut
  rw [if_neg h1, if_neg h2, if_pos (Nat.pos_of_ne_zero h0)]

/-- C85, false of the code: for such a frame `from_sxs` is written to raise the same error, but raises a `NameError` (its message is built from `self`). -/
theorem wrong_error (conv : Arr → Option Attr) (override : Bool) (line closing : List (List Char)) (s : Sxs) (t : Arr) (ht : s.time = .arr t) (a : Arr) (ha : s.frame = some a) (k : Nat) (rest : List Nat)
    (hs : a.shape = k :: rest) (h1 : k ≠ 1) (h2 : k ≠ t.size) : fromSxs conv override line closing s = .error .nameError := by
  have e : frameIn a t.size = .error .nameError := by
    unfold frameIn
    rw [if_neg (by rw [identity_iff, hs]; rintro ⟨h, -⟩; injection h with h _; exact h1 h), hs]
    split
    · rename_i h; cases h
    · rename_i h; injection h with h _; exact absurd h h1
    · rename_i h; injection h with h _; rw [if_neg (by rw [← h]; exact h2)]
  unfold fromSxs
  rw [ht, Validity.get_arr, ok_bind, show s.frameArr = a by unfold Sxs.frameArr; rw [ha]; rfl, e, error_bind]

/-- C85, false of the code: the radii, translation and boost that are attached to the waveform do not come back; they are only listed as modifications. -/
theorem attributes_lost (conv : Arr → Option Attr) (override : Bool) (line closing : List (List Char)) (s : Sxs) (W' : Wave) (h : fromSxs conv override line closing s = .ok W') :
    W'.radii = none ∧ W'.translation = none ∧ W'.boost = none := by
  unfold fromSxs at h
  cases h1 : s.time.get with
  | error e => rw [h1, error_bind] at h; cases h
  | ok t =>
    rw [h1, ok_bind] at h
    cases h2 : frameIn s.frameArr t.size with
    | error e => rw [h2, error_bind] at h; cases h
    | ok f =>
      rw [h2, ok_bind] at h
      generalize construct conv override line closing _ _ _ = r at h
      cases r with
      | error e => cases h
      | ok w => cases h; exact ⟨rfl, rfl, rfl⟩

theorem modifications_eq (W : Wave) (s : Sxs) (h : toSxs W = .ok s) : s.modifications = modifications W := by
  unfold toSxs at h
  cases h1 : nameOf dataNames W.w.base.dataType with
  | error e => rw [h1, error_bind] at h; cases h
  | ok x1 =>
    rw [h1, ok_bind] at h
    cases h2 : nameOf frameNames W.w.base.frameType with
    | error e => rw [h2, error_bind] at h; cases h
    | ok x2 =>
      rw [h2, ok_bind] at h
      cases h3 : W.w.base.frame.get with
      | error e => rw [h3, error_bind] at h; cases h
      | ok x3 =>
        rw [h3, ok_bind] at h
        cases h4 : W.w.base.t.get with
        | error e => rw [h4, error_bind] at h; cases h
        | ok x4 =>
          rw [h4, ok_bind] at h
          cases h5 : x4.dim 0 with
          | error e => rw [h5, error_bind] at h; cases h
          | ok x5 =>
            rw [h5, ok_bind] at h
            cases h6 : frameOut x3 x5 with
            | error e => rw [h6, error_bind] at h; cases h
            | ok x6 => rw [h6, ok_bind] at h; cases h; rfl

/-- C85: the radii of the extrapolation and the translation and boost are listed as modifications, with zeros for the one of translation and boost that is not attached; nothing else is listed. -/
theorem modifications_listed (W : Wave) (s : Sxs) (h : toSxs W = .ok s) :
    (∀ r, Modification.extrapolate r ∈ s.modifications ↔ W.radii = some r) ∧
    ∀ x b, Modification.transform x b ∈ s.modifications ↔ (W.translation ≠ none ∨ W.boost ≠ none) ∧ x = W.translation.getD [.fin 0, .fin 0, .fin 0] ∧ b = W.boost.getD [.fin 0, .fin 0, .fin 0] := by
  rw [modifications_eq W s h]
  unfold modifications
  constructor
  · intro r
    cases W.radii <;> cases W.translation <;> cases W.boost <;> simp [eq_comm]
  · intro x b
    cases W.radii <;> cases W.translation <;> cases W.boost <;> simp

/-- C85, false of the code: the list of history lines travels by reference through both conversions into the constructor, which appends to it in place, so that making the second waveform changes the
history of the first one.  (`o` is the waveform, in the model of storage of C15; the frame is a new array.) -/
theorem history_of_the_original_changes (s : Objects.State) (o : Objects.Obj) (hb : o.history < s.next) (line : Nat) :
    (s.construct o.cls (some o.t) none (some o.data) (some o.history) line).cell o.history = s.cell o.history ++ [line] := by
  have h1 : (s.increment o.cls).cell = s.cell := by unfold Objects.State.increment; split <;> rfl
  have h2 : (s.increment o.cls).next = s.next := by unfold Objects.State.increment; split <;> rfl
  have h3 : o.history ≠ s.next := Nat.ne_of_lt hb
  simp [Objects.State.construct, Objects.State.arg, Objects.State.alloc, Objects.State.appendHistory, Objects.State.write, h1, h2, h3]

/-! ## A case that meets the hypotheses -/

example : ∃ d, ValidModes Props.Validity.good d := Props.Validity.good_valid.1
example : ∃ t f d, Valid Props.Validity.good.base t f d := Props.Validity.good_valid.2
example : (1 : Nat) < (⟨0, fun _ => none, [⟨0, 0, 0, 0, 0, 1⟩], 2, fun _ => []⟩ : Objects.State).next := by decide

end Verif.Props.Exchange
