import Verif.Lemmas.Multishuffle

/-!
# C02, C03: `multishuffle`
-/

namespace Verif.Props.Multishuffle
open Verif.Multishuffle Verif.Spec.Multishuffle

/-- C03 (accepted widths).  `multishuffle` raises `ValueError` exactly when the widths do not
add up to 8, 16, 32 or 64. -/
theorem multishuffle_rejects (widths : List Nat) (forward : Bool) :
    multishuffle widths forward = .error .valueError ↔
      ¬ (widths.sum = 8 ∨ widths.sum = 16 ∨ widths.sum = 32 ∨ widths.sum = 64) := by
  unfold multishuffle
  have : widths.sum ∈ [8, 16, 32, 64] ↔
    (widths.sum = 8 ∨ widths.sum = 16 ∨ widths.sum = 32 ∨ widths.sum = 64) := by simp
  rw [← this]
  split <;> simp_all

/-- C03 (layout).  For positive widths with an accepted sum, shuffling an array of any length
never touches memory outside the arrays, keeps the length, yields words of the same width, and
the bits of the result, read in order, are group after group (least-significant group first)
the corresponding bits of all elements. -/
theorem shuffle_layout (widths a : List Nat) (hpos : ∀ w ∈ widths, 0 < w)
    (hsum : widths.sum = 8 ∨ widths.sum = 16 ∨ widths.sum = 32 ∨ widths.sum = 64) :
    ∃ f b, multishuffle widths true = .ok f ∧ f a = .ok b ∧ b.length = a.length ∧
      Fits widths.sum b ∧ stream widths.sum b = layout 0 widths.reverse a := by
  obtain ⟨b, h, l, fb, v⟩ := shuffle_spec widths a hpos
  refine ⟨shuffle widths.sum widths, b, ?_, h, l, fb, ?_⟩
  · unfold multishuffle
    rw [if_pos (by simpa using hsum)]; rfl
  · apply num_inj
    · rw [length_layout, List.sum_reverse, ← l]
      exact length_flatMap_bitsOf 0 _ b
    · rw [num_stream _ _ fb, num_layout, v]

/-- C02.  Unshuffling a shuffled array of `widths.sum`-bit words gives back the array. -/
theorem unshuffle_shuffle (widths a : List Nat) (hpos : ∀ w ∈ widths, 0 < w)
    (hsum : widths.sum = 8 ∨ widths.sum = 16 ∨ widths.sum = 32 ∨ widths.sum = 64)
    (ha : Fits widths.sum a) :
    ∃ f g b, multishuffle widths true = .ok f ∧ multishuffle widths false = .ok g ∧
      f a = .ok b ∧ g b = .ok a := by
  obtain ⟨b, h, l, fb, v⟩ := shuffle_spec widths a hpos
  obtain ⟨a', h', l', g'⟩ := unshuffle_spec widths b hpos fb
  refine ⟨shuffle widths.sum widths, unshuffle widths.sum widths, b, ?_, ?_, h, ?_⟩
  · unfold multishuffle
    rw [if_pos (by simpa using hsum)]; rfl
  · unfold multishuffle
    rw [if_pos (by simpa using hsum)]; rfl
  · rw [h']
    congr 1
    apply List.ext_getElem (by omega)
    intro k h1 h2
    have := g' k (by omega)
    rw [v, l, unval_flatVal 0 _ a k h2, List.sum_reverse, pow_zero, Nat.div_one] at this
    simp only [List.getD_eq_getElem?_getD, h1, h2, List.getElem?_eq_getElem, Option.getD_some]
      at this
    rw [this, Nat.mod_eq_of_lt (ha _ (List.getElem_mem h2))]

/-- C02.  Shuffling an unshuffled array of `widths.sum`-bit words gives back the array. -/
theorem shuffle_unshuffle (widths b : List Nat) (hpos : ∀ w ∈ widths, 0 < w)
    (hsum : widths.sum = 8 ∨ widths.sum = 16 ∨ widths.sum = 32 ∨ widths.sum = 64)
    (hb : Fits widths.sum b) :
    ∃ f g a, multishuffle widths true = .ok f ∧ multishuffle widths false = .ok g ∧
      g b = .ok a ∧ Fits widths.sum a ∧ f a = .ok b := by
  obtain ⟨a, h, l, g⟩ := unshuffle_spec widths b hpos hb
  obtain ⟨b', h', l', fb', v'⟩ := shuffle_spec widths a hpos
  refine ⟨shuffle widths.sum widths, unshuffle widths.sum widths, a, ?_, ?_, h, ?_, ?_⟩
  · unfold multishuffle
    rw [if_pos (by simpa using hsum)]; rfl
  · unfold multishuffle
    rw [if_pos (by simpa using hsum)]; rfl
  · intro x hx
    obtain ⟨k, hk, rfl⟩ := List.getElem_of_mem hx
    have := g k (by omega)
    simp only [List.getD_eq_getElem?_getD, hk, List.getElem?_eq_getElem, Option.getD_some] at this
    rw [this]
    have := unval_lt b.length widths.reverse (val widths.sum b) k
    rwa [List.sum_reverse] at this
  · rw [h']
    congr 1
    apply val_inj widths.sum b' b (by omega) fb' hb
    rw [v', flatVal_unval 0 widths.reverse a (val widths.sum b) (fun _ => 0) (by simp) (by
      intro k hk
      rw [g k (by omega), l]; simp)]
    rw [List.sum_reverse, l, Nat.mul_comm]
    exact Nat.mod_eq_of_lt (val_lt _ _ hb)

/-- Non-vacuity: widths `[3, 5]` on three bytes straddle byte boundaries; the hypotheses hold
and the shuffled array differs from the input. -/
example : (∀ w ∈ [3, 5], 0 < w) ∧ Fits 8 [0xA7, 0x3C, 0x01] ∧
    shuffle 8 [3, 5] [0xA7, 0x3C, 0x01] = .ok [135, 135, 6] ∧
    unshuffle 8 [3, 5] [135, 135, 6] = .ok [0xA7, 0x3C, 0x01] := by
  refine ⟨by decide, by unfold Fits; decide, by decide, by decide⟩

end Verif.Props.Multishuffle
