import Verif.Lemmas.Xor

/-!
# C01: the XOR time-series encoding is lossless
-/

namespace Verif.Props.Xor
open Verif.Xor Verif.Spec.Xor

/-- C01 (encoder contract).  `xor_timeseries` keeps the shape, leaves the first time step
unchanged, and stores in every later step the XOR of the *original* step with its original
predecessor, word by word, although it works in place. -/
theorem xor_timeseries_spec (m : Nat) (u : List Row) (hu : Rect m u) :
    (xorTimeseries u).length = u.length ∧ Rect m (xorTimeseries u) ∧
    (∀ j, word (xorTimeseries u) 0 j = word u 0 j) ∧
    (∀ i j, i + 1 < u.length →
      word (xorTimeseries u) (i + 1) j = word u i j ^^^ word u (i + 1) j) := by
  refine ⟨length_enc u, rect_enc hu, ?_, ?_⟩
  · intro j
    unfold word
    by_cases h : 0 < u.length
    · rw [enc_getD u 0 h, if_pos rfl]
    · have : u = [] := List.length_eq_zero_iff.mp (by omega)
      subst this; rfl
  · intro i j hi
    unfold word
    rw [enc_getD u _ hi, if_neg (by omega), getD_rowXor]
    · rfl
    · rw [rect_getD hu (by omega), rect_getD hu hi]

/-- C01 (decoder contract).  `xor_timeseries_reverse` keeps the shape and stores in every
time step the XOR of all steps up to and including it. -/
theorem xor_timeseries_reverse_spec (m : Nat) (u : List Row) (hu : Rect m u) :
    (xorTimeseriesReverse u).length = u.length ∧ Rect m (xorTimeseriesReverse u) ∧
    (∀ i j, i < u.length → word (xorTimeseriesReverse u) i j = prefixXor u j i) := by
  refine ⟨length_dec u, rect_dec hu, ?_⟩
  intro i j hi
  unfold word
  rw [dec_getD u i hi, acc_eq_prefix hu i j hi]

/-- C01.  Decoding an encoded time series gives back exactly the original words. -/
theorem xor_reverse_xor (m : Nat) (u : List Row) (hu : Rect m u) :
    xorTimeseriesReverse (xorTimeseries u) = u := by
  apply ext_getD (by rw [length_dec, length_enc])
  intro i hi
  rw [length_dec, length_enc] at hi
  rw [dec_getD _ i (by rw [length_enc]; exact hi)]
  induction i with
  | zero =>
    show (xorTimeseries u).getD 0 [] = _
    rw [enc_getD u 0 hi, if_pos rfl]
  | succ i ih =>
    show rowXor (acc (xorTimeseries u) i) ((xorTimeseries u).getD (i + 1) []) = _
    rw [ih (by omega), enc_getD u _ hi, if_neg (by omega), Nat.add_sub_cancel,
      rowXor_self_left]
    rw [rect_getD hu (by omega), rect_getD hu hi]

/-- C01.  Encoding a decoded time series gives back exactly the encoded words. -/
theorem xor_xor_reverse (m : Nat) (u : List Row) (hu : Rect m u) :
    xorTimeseries (xorTimeseriesReverse u) = u := by
  apply ext_getD (by rw [length_enc, length_dec])
  intro i hi
  rw [length_enc, length_dec] at hi
  rw [enc_getD _ i (by rw [length_dec]; exact hi)]
  by_cases h : i = 0
  · subst h
    rw [if_pos rfl, dec_getD u 0 hi]; rfl
  · rw [if_neg h]
    obtain ⟨k, rfl⟩ : ∃ k, i = k + 1 := ⟨i - 1, by omega⟩
    rw [Nat.add_sub_cancel, dec_getD u k (by omega), dec_getD u _ hi]
    show rowXor (acc u k) (rowXor (acc u k) (u.getD (k + 1) [])) = _
    rw [rowXor_self_left]
    rw [length_acc hu k (by omega), rect_getD hu hi]

/-- Non-vacuity: a 3-step, 2-column array meets the hypothesis, is changed by the encoder
and restored by the decoder. -/
example : Rect 2 [[1, 2], [3, 2], [7, 0]] ∧
    xorTimeseries [[1, 2], [3, 2], [7, 0]] = [[1, 2], [2, 0], [4, 2]] ∧
    xorTimeseriesReverse [[1, 2], [2, 0], [4, 2]] = [[1, 2], [3, 2], [7, 0]] := by
  refine ⟨by unfold Rect; decide, by decide, by decide⟩

end Verif.Props.Xor
