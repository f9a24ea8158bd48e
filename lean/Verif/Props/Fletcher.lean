import Verif.Lemmas.Fletcher
import Mathlib.Data.Int.ModEq
import Mathlib.Tactic.IntervalCases

/-!
# C04, C05: the Fletcher-32 checksum
-/

namespace Verif.Props.Fletcher
open Verif.Fletcher Verif.Spec.Fletcher

/-- C04.  No 32-bit accumulator ever wraps: the function computed with wrap-around after
every addition and shift is the one computed with unbounded integers. -/
theorem fletcher32_no_overflow (data : List Nat) (hd : Words data) :
    fletcher32 data = run id 360 data := by
  unfold fletcher32 run
  simp only
  rw [loop_u32 _ _ hd _ (by norm_num) (by norm_num), loop_id 360 (by norm_num) _ _ le_rfl _
    (by norm_num) (by norm_num)]
  generalize hx : (0 + data.length * 0 + weightedSum data) % 65535 = x
  have hx' : x < 65535 := hx ▸ Nat.mod_lt _ (by norm_num)
  have : u32 (x <<< 16) = id (x <<< 16) := by
    unfold u32
    rw [Nat.shiftLeft_eq]
    exact Nat.mod_eq_of_lt (by omega)
  rw [this]

/-- C04.  For every sequence of 16-bit words, `fletcher32` is the Fletcher-32 checksum. -/
theorem fletcher32_eq_checksum (data : List Nat) (hd : Words data) :
    fletcher32 data = checksum data := by
  rw [fletcher32_no_overflow data hd]
  unfold run checksum
  simp only
  rw [loop_id 360 (by norm_num) _ _ le_rfl _ (by norm_num) (by norm_num)]
  simp only [id, Nat.zero_add, Nat.mul_zero]
  exact shift_or _ _ (Nat.mod_lt _ (by norm_num))

/-- C04.  The result fits in 32 bits, and both halves are below 65535. -/
theorem fletcher32_range (data : List Nat) (hd : Words data) :
    fletcher32 data < 2 ^ 32 ∧ fletcher32 data / 65536 < 65535 ∧ fletcher32 data % 65536 < 65535 := by
  rw [fletcher32_eq_checksum data hd]
  unfold checksum
  have h1 : weightedSum data % 65535 < 65535 := Nat.mod_lt _ (by norm_num)
  have h2 : simpleSum data % 65535 < 65535 := Nat.mod_lt _ (by norm_num)
  omega

/-- C04.  The comment "largest number of sums that can be performed without overflow" is
right: with blocks of 361 words there is an input for which a 32-bit accumulator wraps and
changes the checksum. -/
theorem block_361_overflows :
    ∃ data, Words data ∧ run u32 361 data ≠ run id 361 data := by
  refine ⟨65534 :: List.replicate 360 0 ++ List.replicate 361 65535, ?_, ?_⟩
  · intro d hd
    simp only [List.mem_append, List.mem_cons, List.mem_replicate] at hd
    omega
  · decide +kernel

theorem checksum_eq_iff (x y : List Nat) :
    checksum x = checksum y ↔
      simpleSum x ≡ simpleSum y [MOD 65535] ∧ weightedSum x ≡ weightedSum y [MOD 65535] := by
  unfold checksum Nat.ModEq
  have h1 : weightedSum x % 65535 < 65535 := Nat.mod_lt _ (by norm_num)
  have h2 : simpleSum x % 65535 < 65535 := Nat.mod_lt _ (by norm_num)
  have h3 : weightedSum y % 65535 < 65535 := Nat.mod_lt _ (by norm_num)
  have h4 : simpleSum y % 65535 < 65535 := Nat.mod_lt _ (by norm_num)
  omega

/-- C05.  Replacing one word `d` by `e` anywhere in the data leaves the checksum unchanged
exactly when `d` and `e` are congruent modulo 65535, i.e. when they are equal or are 0x0000
and 0xffff in some order. -/
theorem fletcher32_single_word (l r : List Nat) (d e : Nat)
    (hd : Words (l ++ d :: r)) (he : Words (l ++ e :: r)) :
    fletcher32 (l ++ d :: r) = fletcher32 (l ++ e :: r) ↔
      d = e ∨ (d = 0 ∧ e = 65535) ∨ (d = 65535 ∧ e = 0) := by
  rw [fletcher32_eq_checksum _ hd, fletcher32_eq_checksum _ he, checksum_eq_iff]
  have hd' : d < 2 ^ 16 := hd d (by simp)
  have he' : e < 2 ^ 16 := he e (by simp)
  simp only [simpleSum_append, weightedSum_append, simpleSum, weightedSum, List.length_cons]
  constructor
  · rintro ⟨h, -⟩
    have h' : d ≡ e [MOD 65535] := by
      have := Nat.ModEq.add_left_cancel' _ h
      exact Nat.ModEq.add_right_cancel' _ this
    unfold Nat.ModEq at h'
    omega
  · intro h
    have h' : d ≡ e [MOD 65535] := by
      unfold Nat.ModEq; omega
    refine ⟨(h'.add_right _).add_left _, ?_⟩
    exact ((h'.mul_left _).add_right _).add_left _

/-- C05.  Swapping two adjacent words leaves the checksum unchanged exactly when they are
congruent modulo 65535. -/
theorem fletcher32_adjacent_swap (l r : List Nat) (d e : Nat)
    (hd : Words (l ++ d :: e :: r)) :
    fletcher32 (l ++ d :: e :: r) = fletcher32 (l ++ e :: d :: r) ↔
      d = e ∨ (d = 0 ∧ e = 65535) ∨ (d = 65535 ∧ e = 0) := by
  have he : Words (l ++ e :: d :: r) := by
    intro x hx
    apply hd
    simp only [List.mem_append, List.mem_cons] at hx ⊢
    tauto
  rw [fletcher32_eq_checksum _ hd, fletcher32_eq_checksum _ he, checksum_eq_iff]
  have hd' : d < 2 ^ 16 := hd d (by simp)
  have he' : e < 2 ^ 16 := hd e (by simp)
  simp only [simpleSum_append, weightedSum_append, simpleSum, weightedSum, List.length_cons]
  generalize weightedSum l + (r.length + 1 + 1) * simpleSum l = A
  constructor
  · rintro ⟨-, h⟩
    have h2 := Nat.ModEq.add_left_cancel' _ h
    have h3 : d + ((r.length + 1) * d + (r.length + 1) * e + weightedSum r) ≡
        e + ((r.length + 1) * d + (r.length + 1) * e + weightedSum r) [MOD 65535] := by
      convert h2 using 1 <;> ring
    have h' : d ≡ e [MOD 65535] := Nat.ModEq.add_right_cancel' _ h3
    unfold Nat.ModEq at h'
    omega
  · intro h
    have h' : d ≡ e [MOD 65535] := by
      unfold Nat.ModEq; omega
    refine ⟨by rw [show d + (e + simpleSum r) = e + (d + simpleSum r) by ring], ?_⟩
    apply Nat.ModEq.add_left
    have h3 : d + ((r.length + 1) * d + (r.length + 1) * e + weightedSum r) ≡
        e + ((r.length + 1) * d + (r.length + 1) * e + weightedSum r) [MOD 65535] :=
      h'.add_right _
    convert h3 using 1 <;> ring

/-- The exception in `fletcher32_single_word` is real: a word of all zeros replaced by a word
of all ones is not detected. -/
theorem fletcher32_misses_zero_ones : fletcher32 [7, 0, 9] = fletcher32 [7, 65535, 9] := by
  decide +kernel

/-- Non-vacuity: a message longer than one block meets the hypothesis. -/
example : Words (List.replicate 400 12345) ∧
    fletcher32 (List.replicate 400 12345) = checksum (List.replicate 400 12345) := by
  refine ⟨?_, by decide +kernel⟩
  intro d hd
  rw [List.mem_replicate] at hd
  omega

/-- Non-vacuity (a standard test vector: the 16-bit little-endian words of "abcdef"). -/
example : fletcher32 [0x6261, 0x6463, 0x6665] = 0x56502D2A := by decide +kernel

end Verif.Props.Fletcher
