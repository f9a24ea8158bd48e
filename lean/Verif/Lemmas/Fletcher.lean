import Verif.Model.Fletcher
import Verif.Spec.Fletcher
import Mathlib.Tactic.Ring
import Mathlib.Tactic.Linarith
import Mathlib.Data.Int.ModEq

namespace Verif.Fletcher
open Verif.Spec.Fletcher

theorem foldl_inner_id (l : List Nat) (c : Nat × Nat) :
    l.foldl (inner id) c =
      (c.1 + simpleSum l, c.2 + l.length * c.1 + weightedSum l) := by
  induction l generalizing c with
  | nil => simp [simpleSum, weightedSum]
  | cons d l ih =>
    rw [List.foldl_cons, ih]
    simp only [inner, id, simpleSum, weightedSum, List.length_cons, Prod.mk.injEq]
    constructor <;> ring

theorem foldl_inner_eq (wrap : Nat → Nat) (bound : Nat) (hw : ∀ n, n ≤ bound → wrap n = n)
    (l : List Nat) (hl : Words l) (c : Nat × Nat)
    (h0 : c.1 + l.length * 65535 ≤ bound)
    (h1 : c.2 + l.length * c.1 + l.length * (l.length + 1) / 2 * 65535 ≤ bound) :
    l.foldl (inner wrap) c = l.foldl (inner id) c := by
  induction l generalizing c with
  | nil => rfl
  | cons d l ih =>
    have hd : d ≤ 65535 := by
      have := hl d (by simp); omega
    have hl' : Words l := fun x hx => hl x (by simp [hx])
    simp only [List.length_cons] at h0 h1
    have e : (l.length + 1) * (l.length + 1 + 1) / 2 =
        l.length * (l.length + 1) / 2 + (l.length + 1) := by
      have : (l.length + 1) * (l.length + 1 + 1) = l.length * (l.length + 1) + 2 * (l.length + 1) := by
        ring
      rw [this, Nat.add_mul_div_left _ _ (by norm_num)]
    rw [e] at h1
    have b0 : c.1 + d ≤ bound := by nlinarith
    have b1 : c.2 + (c.1 + d) ≤ bound := by
      have p1 : 0 ≤ l.length * c.1 := Nat.zero_le _
      have p2 : 0 ≤ l.length * (l.length + 1) / 2 := Nat.zero_le _
      rw [Nat.add_mul] at h1
      omega
    rw [List.foldl_cons, List.foldl_cons]
    have : inner wrap c d = inner id c d := by simp [inner, hw _ b0, hw _ b1]
    rw [this]
    apply ih hl'
    · simp only [inner, id]; nlinarith
    · simp only [inner, id]; nlinarith

theorem simpleSum_append (l₁ l₂ : List Nat) :
    simpleSum (l₁ ++ l₂) = simpleSum l₁ + simpleSum l₂ := by
  induction l₁ with
  | nil => simp [simpleSum]
  | cons d l ih => simp [simpleSum, ih]; ring

theorem weightedSum_append (l₁ l₂ : List Nat) :
    weightedSum (l₁ ++ l₂) = weightedSum l₁ + l₂.length * simpleSum l₁ + weightedSum l₂ := by
  induction l₁ with
  | nil => simp [weightedSum, simpleSum]
  | cons d l ih => simp [weightedSum, simpleSum, ih]; ring

/-- With exact arithmetic the blocked loop computes the sums modulo 65535. -/
theorem loop_id (block : Nat) (hb : 0 < block) (fuel : Nat) (data : List Nat)
    (hf : data.length ≤ fuel) (c : Nat × Nat) (h0 : c.1 < 65535) (h1 : c.2 < 65535) :
    loop id block fuel data c =
      ((c.1 + simpleSum data) % 65535,
        (c.2 + data.length * c.1 + weightedSum data) % 65535) := by
  induction fuel generalizing data c with
  | zero =>
    have : data = [] := List.length_eq_zero_iff.mp (by omega)
    subst this
    simp [loop, simpleSum, weightedSum, Nat.mod_eq_of_lt h0, Nat.mod_eq_of_lt h1]
  | succ fuel ih =>
    unfold loop
    by_cases hd : data = []
    · subst hd
      simp [simpleSum, weightedSum, Nat.mod_eq_of_lt h0, Nat.mod_eq_of_lt h1]
    · have hne : data.isEmpty = false := by simpa using hd
      have hpos : 0 < data.length := List.length_pos_iff.mpr hd
      rw [if_neg (by simp [hne])]
      simp only
      rw [ih (data.drop block) (by rw [List.length_drop]; omega) _
        (Nat.mod_lt _ (by norm_num)) (Nat.mod_lt _ (by norm_num)), foldl_inner_id]
      conv_rhs => rw [← List.take_append_drop block data, simpleSum_append, weightedSum_append,
        List.length_append]
      generalize data.take block = A
      generalize data.drop block = B
      simp only [Prod.mk.injEq]
      constructor
      · rw [Nat.mod_add_mod]; ring_nf
      · have k1 : (c.1 + simpleSum A) % 65535 ≡ c.1 + simpleSum A [MOD 65535] := Nat.mod_modEq _ _
        have k2 : (c.2 + A.length * c.1 + weightedSum A) % 65535 ≡
          c.2 + A.length * c.1 + weightedSum A [MOD 65535] := Nat.mod_modEq _ _
        have := ((k2.add (k1.mul_left B.length)).add_right (weightedSum B))
        refine Nat.ModEq.trans this ?_
        refine congrArg (fun n : Nat => n % 65535) ?_
        ring

theorem words_take {l : List Nat} (h : Words l) (n : Nat) : Words (l.take n) :=
  fun d hd => h d (List.mem_of_mem_take hd)

theorem words_drop {l : List Nat} (h : Words l) (n : Nat) : Words (l.drop n) :=
  fun d hd => h d (List.mem_of_mem_drop hd)

theorem loop_u32 (fuel : Nat) (data : List Nat) (hd : Words data) (c : Nat × Nat)
    (h0 : c.1 < 65535) (h1 : c.2 < 65535) :
    loop u32 360 fuel data c = loop id 360 fuel data c := by
  induction fuel generalizing data c with
  | zero => rfl
  | succ fuel ih =>
    unfold loop
    split
    · rfl
    · have hlen : (data.take 360).length ≤ 360 := by simp
      have e := foldl_inner_eq u32 (2 ^ 32 - 1)
        (fun n hn => by unfold u32; exact Nat.mod_eq_of_lt (by omega)) (data.take 360)
        (words_take hd 360) c (by omega) (by
          have : (data.take 360).length * ((data.take 360).length + 1) / 2 ≤ 360 * 361 / 2 :=
            Nat.div_le_div_right (Nat.mul_le_mul hlen (by omega))
          have h2 : (data.take 360).length * c.1 ≤ 360 * 65534 := Nat.mul_le_mul hlen (by omega)
          have h3 : (data.take 360).length * ((data.take 360).length + 1) / 2 * 65535
            ≤ 360 * 361 / 2 * 65535 := Nat.mul_le_mul_right _ this
          omega)
      simp only
      rw [e, ih _ (words_drop hd 360) _ (Nat.mod_lt _ (by norm_num)) (Nat.mod_lt _ (by norm_num))]

theorem shift_or (a b : Nat) (hb : b < 65535) : (a <<< 16) ||| b = a * 65536 + b := by
  rw [← Nat.shiftLeft_add_eq_or_of_lt (by omega), Nat.shiftLeft_eq]

end Verif.Fletcher
