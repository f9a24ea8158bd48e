import Verif.Props.Exchange
import Verif.Model.Rpxmb
import Verif.Spec.Rpxmb

/-!
# C110: RPXMB files through the functions of scri
-/

namespace Verif.Props.Rpxmb
open Verif Verif.Validity Verif.Exchange Verif.Rpxmb Verif.Spec.Validity Verif.Spec.Rpxmb
open Verif.Props.Exchange (rotorAt)

variable {D J L S K R : Type} (conv : Arr → Option Attr) (line closing : List (List Char)) (lib : Lib D J L S K R)

/-- C110: a waveform `W` is saved, and the package `sxs` stores it as `V` (for example in its corotating frame, with the data rounded).  Then `load` returns a waveform with the data, the frame and the type of frame of `V` and
everything else of `W`, with the logarithm of the frame and the other information of the file attached; the logarithm is returned as a second value exactly if the data are not transformed to the inertial frame. -/
theorem load_saved (W V : Wave) (s v : Sxs) (hs : toSxs W = .ok s) (hv : toSxs V = .ok v) (keep : Keeps V W)
    {t f d : Arr} (hwf : Arr.WF t) (hff : Arr.WF f) (hm : ValidModes V.w d) (hV : Valid V.w.base t f d) (n : Nat) (hnd : t.shape = [n]) (hf : f.ndim ≤ 1)
    (a : SaveArgs L S) (b : LoadArgs K) (file : List Char) (d0 d1 : D) (r : R) (j : J) (l : L)
    (hsave : lib.save s a d0 = .ok (r, d1)) (hload : lib.load file b d1 = .ok ⟨v, j, l⟩) :
    save lib W a d0 = .ok (r, d1) ∧
    ∃ W' g, (b.inertial = false → load conv line closing lib file b d1 = .ok (.two ⟨W', j, l⟩ l)) ∧ (b.inertial = true → load conv line closing lib file b d1 = .ok (.one ⟨W', j, l⟩)) ∧
      Keeps W' W ∧ W'.w.base.data = V.w.base.data ∧ W'.w.base.frameType = V.w.base.frameType ∧ W'.w.base.frame = .arr g ∧ (∀ i, rotorAt g i = rotorAt f i) ∧
      ∃ h, V.w.base.history = .list h ∧ W'.w.base.history = .list (h ++ line.map some ++ closing.map some) := by
  refine ⟨by rw [save, hs, ok_bind, hsave], ?_⟩
  obtain ⟨v', W', g, e1, e2, h1, h2, h3, h4, h5, h6, h7, h8, h9, h10, h11, h12, -, h14⟩ := Props.Exchange.round_trip conv false line closing V t f d hwf hff hm hV n hnd hf
  obtain rfl : v = v' := Except.ok.inj (hv.symm.trans e1)
  have hl : load conv line closing lib file b d1 = if b.inertial then .ok (.one ⟨W', j, l⟩) else .ok (.two ⟨W', j, l⟩ l) := by
    rw [load, hload, ok_bind]
    show (do let W ← fromSxs conv false line closing v; _) = _
    rw [e2, ok_bind]
    rfl
  refine ⟨W', g, fun h => ?_, fun h => ?_, ⟨h1.trans keep.t, h3.trans keep.dataType, h5.trans keep.rScaled, h6.trans keep.mScaled, h7.trans keep.ellMin, h8.trans keep.ellMax, h9.trans keep.LM, h10.trans keep.versionHist⟩, h2, h4, h11, h12, h14⟩
  · rw [hl, h]
    rfl
  · rw [hl, h]
    rfl

/-- C110: by default a file that does not pass the validation or has another checksum raises an exception, whatever the other arguments are. -/
theorem corrupt_raises (file : List Char) (k : K) (d : D) (e : PyErr) (inertial : Bool)
    (h : ∀ b : LoadArgs K, b.ignoreValidation = false → b.checkMd5 = true → lib.load file b d = .error e) :
    load conv line closing lib file { inertial := inertial, other := k } d = .error e := by
  rw [load, h _ rfl rfl, error_bind]

/-- C110: a waveform whose frame has neither one rotor nor one for each time is rejected before anything is written. -/
theorem wrong_frame_not_saved (W : Wave) (a : SaveArgs L S) (d0 : D) (z y : Int) (hz : W.w.base.dataType = .int z ∧ 0 ≤ z ∧ z < 11) (hy : W.w.base.frameType = .int y ∧ 0 ≤ y ∧ y < 5) (t f : Arr) (ht : W.w.base.t = .arr t) (hf : W.w.base.frame = .arr f) (n : Nat) (hn : t.shape = [n])
    (h0 : f.size ≠ 0) (h1 : f.size ≠ 1) (h2 : f.size ≠ n) : save lib W a d0 = .error .valueError := by
  obtain ⟨sd, hsd, -⟩ := Props.Exchange.data_type_round z hz.2.1 hz.2.2
  obtain ⟨sf, hsf, -⟩ := Props.Exchange.frame_type_round y hy.2.1 hy.2.2
  rw [save, toSxs, hz.1, hsd, ok_bind, hy.1, hsf, ok_bind, hf, Validity.get_arr, ok_bind, ht, Validity.get_arr, ok_bind, show t.dim 0 = .ok n by simp [Arr.dim, hn], ok_bind, Props.Exchange.frame_rejected f n h0 h1 h2, error_bind, error_bind]

/-! ## Non-vacuity -/

/-- A package that keeps the last waveform in memory. -/
def memory : Lib (Option Sxs) Unit Unit Unit Unit Unit where
  save s _ _ := .ok ((), some s)
  load _ _ d := match d with
    | some s => .ok ⟨s, (), ()⟩
    | none => .error .valueError

/-- A waveform for which all hypotheses hold. -/
example : ∃ (W : Wave) (s : Sxs) (t f d : Arr) (n : Nat), toSxs W = .ok s ∧ Keeps W W ∧ Arr.WF t ∧ Arr.WF f ∧ ValidModes W.w d ∧ Valid W.w.base t f d ∧ t.shape = [n] ∧ f.ndim ≤ 1 ∧
    memory.save s (SaveArgs.default () []) none = .ok ((), some s) ∧ memory.load [] { other := () } (some s) = .ok ⟨s, (), ()⟩ := by
  obtain ⟨⟨d', h1⟩, t, f, d, h2⟩ := Props.Validity.good_valid
  have ht := h2.t_eq
  have hf := h2.frame_eq
  have hd := h1.data.symm.trans h2.data_eq
  cases hd
  have w1 : Arr.WF t := by
    cases ht
    rfl
  have w2 : Arr.WF f := by
    cases hf
    rfl
  have w3 : t.shape = [2] := by
    cases ht
    rfl
  have w4 : f.ndim ≤ 1 := by
    cases hf
    decide
  obtain ⟨s, -, -, hs, -⟩ := Props.Exchange.round_trip (fun _ => none) false [] [] ⟨Props.Validity.good, [], none, none, none⟩ t f d' w1 w2 h1 h2 2 w3 w4
  exact ⟨⟨Props.Validity.good, [], none, none, none⟩, s, t, f, d', 2, hs, ⟨rfl, rfl, rfl, rfl, rfl, rfl, rfl, rfl⟩, w1, w2, h1, h2, w3, w4, rfl, rfl⟩

end Verif.Props.Rpxmb
