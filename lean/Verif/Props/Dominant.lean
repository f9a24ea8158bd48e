import Verif.Model.Dominant

/-!
# C53: the sign of the dominant eigenvector
-/

namespace Verif.Props.Dominant
open Verif Verif.Dominant

/-- The dot product. -/
def dot (u v : V) : ℝ := u.x * v.x + u.y * v.y + u.z * v.z

theorem dot_neg (u v : V) : dot u.neg v = -dot u v := by unfold dot V.neg; ring
theorem dot_comm (u v : V) : dot u v = dot v u := by unfold dot; ring

/-- All `n` rows are unit vectors. -/
def Units (n : Int) (a : Int → V) : Prop := ∀ i, 0 ≤ i → i < n → dot (a i) (a i) = 1

open Classical in
/-- A row after comparison with a neighbour. -/
noncomputable def turned (v u : V) : V := if dot v u < 1 / 2 then v.neg else v

theorem turned_unit (v u : V) (h : dot v v = 1) : dot (turned v u) (turned v u) = 1 := by
  unfold turned; split
  · rw [dot_neg, dot_comm, dot_neg, h]; ring
  · exact h

theorem turned_sign (v u : V) : turned v u = v ∨ turned v u = v.neg := by
  unfold turned; split <;> simp

theorem wrap_nonneg {n i : Int} (h : 0 ≤ i) : wrap n i = i := by unfold wrap; rw [if_neg (by omega)]

theorem sqrt_unit {v : V} (h : dot v v = 1) : Real.sqrt (v.x ^ 2 + v.y ^ 2 + v.z ^ 2) = 1 := by
  rw [show v.x ^ 2 + v.y ^ 2 + v.z ^ 2 = dot v v by unfold dot; ring, h, Real.sqrt_one]

open Classical in
theorem step_unit (n d : Int) (a : Int → V) (i : Int) (hv : dot (a (wrap n i)) (a (wrap n i)) = 1)
    (hu : dot (a (wrap n (i - d))) (a (wrap n (i - d))) = 1) :
    step n d ⟨a, 1⟩ i = ⟨fun k => if k = wrap n i then turned (a (wrap n i)) (a (wrap n (i - d))) else a k, 1⟩ := by
  have hs := sqrt_unit hv
  have hc : ((a (wrap n i)).x - (a (wrap n (i - d))).x) ^ 2 + ((a (wrap n i)).y - (a (wrap n (i - d))).y) ^ 2 +
      ((a (wrap n i)).z - (a (wrap n (i - d))).z) ^ 2 > (a (wrap n i)).x ^ 2 + (a (wrap n i)).y ^ 2 + (a (wrap n i)).z ^ 2 ↔
      dot (a (wrap n i)) (a (wrap n (i - d))) < 1 / 2 := by
    unfold dot at *
    constructor <;> intro h <;> nlinarith
  unfold step
  simp only [hc, hs]
  rw [if_neg (by simp)]
  congr 1
  unfold turned put
  split
  · rfl
  · funext k
    split
    · rename_i h; rw [h]
    · rfl

theorem start_unit (n idx : Int) (a : Int → V) (h : dot (a (wrap n idx)) (a (wrap n idx)) = 1) : start n idx a = ⟨a, 1⟩ := by
  unfold start; rw [sqrt_unit h]

theorem finish_unit (n i : Int) (a : Int → V) : finish n i ⟨a, 1⟩ = a := by
  unfold finish; rw [if_neg (by simp)]

/-- The loop towards earlier times. -/
theorem backward_loop (n idx : Int) (h1 : idx < n) (a : Int → V) (ha : Units n a) (k : Nat) (hk : (k : Int) ≤ idx) :
    ∃ r, ((List.range k).map fun (j : Nat) => idx - 1 - (j : Int)).foldl (step n (-1)) ⟨a, 1⟩ = ⟨r, 1⟩ ∧ Units n r ∧
      (∀ i, ¬ (idx - k ≤ i ∧ i < idx) → r i = a i) ∧ (∀ i, idx - k ≤ i → i < idx → r i = turned (a i) (r (i + 1))) := by
  induction k with
  | zero => exact ⟨a, rfl, ha, fun _ _ => rfl, fun i h h' => by omega⟩
  | succ k ih =>
    obtain ⟨r, hr, hu, hsame, hturn⟩ := ih (by omega)
    have w1 : wrap n (idx - 1 - k) = idx - 1 - k := wrap_nonneg (by omega)
    have w2 : wrap n (idx - 1 - k - -1) = idx - k := by rw [wrap_nonneg (by omega)]; ring
    rw [List.range_succ, List.map_append, List.foldl_append, hr]
    simp only [List.map_cons, List.map_nil, List.foldl_cons, List.foldl_nil]
    rw [step_unit n (-1) r (idx - 1 - k) (by rw [w1]; exact hu _ (by omega) (by omega)) (by rw [w2]; exact hu _ (by omega) (by omega)),
      w1, w2]
    refine ⟨_, rfl, ?_, ?_, ?_⟩
    · intro i hi1 hi2
      simp only
      split
      · exact turned_unit _ _ (hu _ (by omega) (by omega))
      · exact hu i hi1 hi2
    · intro i hi
      rw [if_neg (by omega)]
      exact hsame i (by omega)
    · intro i hi1 hi2
      by_cases h : i = idx - 1 - k
      · rw [if_pos h, if_neg (by omega), h, hsame (idx - 1 - k) (by omega)]
        congr 2; ring
      · rw [if_neg h, if_neg (by omega)]
        exact hturn i (by omega) hi2

/-- The loop towards later times. -/
theorem forward_loop (n idx : Int) (h0 : 0 ≤ idx) (a : Int → V) (ha : Units n a) (k : Nat) (hk : idx + 1 + k ≤ n) :
    ∃ r, (pyRange (idx + 1) (idx + 1 + k)).foldl (step n 1) ⟨a, 1⟩ = ⟨r, 1⟩ ∧ Units n r ∧
      (∀ i, ¬ (idx < i ∧ i < idx + 1 + k) → r i = a i) ∧ (∀ i, idx < i → i < idx + 1 + k → r i = turned (a i) (r (i - 1))) := by
  induction k with
  | zero =>
    refine ⟨a, ?_, ha, fun _ _ => rfl, fun i h h' => by omega⟩
    rw [pyRange_empty (by omega)]; rfl
  | succ k ih =>
    obtain ⟨r, hr, hu, hsame, hturn⟩ := ih (by omega)
    have w1 : wrap n (idx + 1 + k) = idx + 1 + k := wrap_nonneg (by omega)
    have w2 : wrap n (idx + 1 + k - 1) = idx + k := by rw [wrap_nonneg (by omega)]; ring
    rw [show idx + 1 + ((k + 1 : Nat) : Int) = (idx + 1 + k) + 1 by push_cast; ring, pyRange_snoc (by omega), List.foldl_append, hr]
    simp only [List.foldl_cons, List.foldl_nil]
    rw [step_unit n 1 r (idx + 1 + k) (by rw [w1]; exact hu _ (by omega) (by omega)) (by rw [w2]; exact hu _ (by omega) (by omega)),
      w1, w2]
    refine ⟨_, rfl, ?_, ?_, ?_⟩
    · intro i hi1 hi2
      simp only
      split
      · exact turned_unit _ _ (hu _ (by omega) (by omega))
      · exact hu i hi1 hi2
    · intro i hi
      rw [if_neg (by omega)]
      exact hsame i (by omega)
    · intro i hi1 hi2
      by_cases h : i = idx + 1 + k
      · rw [if_pos h, if_neg (by omega), h, hsame (idx + 1 + k) (by omega)]
        congr 2; ring
      · rw [if_neg h, if_neg (by omega)]
        exact hturn i hi1 (by omega)

/-- C53: for unit vectors and an index from 0 to `n - 1`, the complete description: the row at the index is
turned to the side of the rough direction, and going away from it each row is turned by comparison with the
previous one. -/
theorem dominant_spec (n idx : Int) (h0 : 0 ≤ idx) (h1 : idx < n) (a : Int → V) (ha : Units n a) (rough : V) :
    let r := dominant n a rough idx
    (r idx = if dot rough (a idx) < 0 then (a idx).neg else a idx) ∧
    (∀ i, 0 ≤ i → i < idx → r i = turned (a i) (r (i + 1))) ∧
    (∀ i, idx < i → i < n → r i = turned (a i) (r (i - 1))) := by
  intro r
  have hn : Units n (orient n a rough idx) := by
    intro i hi1 hi2
    unfold orient
    split
    · unfold put
      split
      · rename_i h; rw [dot_neg, dot_comm, dot_neg, neg_neg]
        rw [wrap_nonneg h0] at *; exact ha _ (by omega) (by omega)
      · exact ha i hi1 hi2
    · exact ha i hi1 hi2
  have hoi : orient n a rough idx idx = if dot rough (a idx) < 0 then (a idx).neg else a idx := by
    unfold orient
    rw [wrap_nonneg h0]
    unfold put dot
    rw [wrap_nonneg h0]
    split <;> simp
  have hoo : ∀ i, i ≠ idx → orient n a rough idx i = a i := by
    intro i hi
    unfold orient put
    rw [wrap_nonneg h0]
    split
    · simp only; rw [if_neg hi]
    · rfl
  have hw := wrap_nonneg (n := n) h0
  obtain ⟨b, hb, ub, bs, bt⟩ := backward_loop n idx h1 _ hn idx.toNat (by omega)
  obtain ⟨c, hc, uc, cs, ct⟩ := forward_loop n idx h0 b ub (n - idx - 1).toNat (by omega)
  have hr : r = c := by
    show dominant n a rough idx = c
    unfold dominant backward
    simp only
    rw [start_unit n idx (orient n a rough idx) (by rw [hw]; exact hn idx h0 h1), hb, finish_unit, start_unit n idx _ (by rw [hw]; exact ub idx h0 h1)]
    rw [show idx + 1 + ((n - idx - 1).toNat : Int) = n by omega] at hc
    rw [hc, finish_unit]
  rw [hr]
  refine ⟨?_, ?_, ?_⟩
  · rw [cs idx (by omega), bs idx (by omega), hoi]
  · intro i hi1 hi2
    rw [cs i (by omega), cs (i + 1) (by omega), bt i (by omega) hi2, hoo i (by omega)]
  · intro i hi1 hi2
    rw [ct i hi1 (by omega), bs i (by omega), hoo i (by omega)]

/-- C53: only signs are changed. -/
theorem dominant_sign (n idx : Int) (h0 : 0 ≤ idx) (h1 : idx < n) (a : Int → V) (ha : Units n a) (rough : V) (i : Int)
    (hi : 0 ≤ i) (hi' : i < n) : dominant n a rough idx i = a i ∨ dominant n a rough idx i = (a i).neg := by
  obtain ⟨s1, s2, s3⟩ := dominant_spec n idx h0 h1 a ha rough
  rcases lt_trichotomy i idx with h | h | h
  · rw [s2 i hi h]; exact turned_sign _ _
  · subst h; rw [s1]; split <;> simp
  · rw [s3 i h hi']; exact turned_sign _ _

/-- C53: at the given index the result is on the side of the rough direction. -/
theorem dominant_side (n idx : Int) (h0 : 0 ≤ idx) (h1 : idx < n) (a : Int → V) (ha : Units n a) (rough : V) :
    0 ≤ dot rough (dominant n a rough idx idx) := by
  obtain ⟨s1, _, _⟩ := dominant_spec n idx h0 h1 a ha rough
  rw [s1]
  split
  · rename_i h; rw [dot_comm, dot_neg, dot_comm]; linarith
  · rename_i h; linarith

theorem turned_dot (v u : V) : dot (turned v u) u = if dot v u < 1 / 2 then -dot v u else dot v u := by
  unfold turned; split
  · rw [dot_neg]
  · rfl

/-- Consecutive rows of the result: one of them is a row `v` turned by comparison with the other, which is plus or
minus the neighbour of `v`. -/
theorem consecutive (n idx : Int) (h0 : 0 ≤ idx) (h1 : idx < n) (a : Int → V) (ha : Units n a) (rough : V) (i : Int)
    (hi : 0 ≤ i) (hi' : i + 1 < n) :
    let r := dominant n a rough idx
    (dot (r i) (r (i + 1)) = if dot (a i) (r (i + 1)) < 1 / 2 then -dot (a i) (r (i + 1)) else dot (a i) (r (i + 1))) ∧
      (r (i + 1) = a (i + 1) ∨ r (i + 1) = (a (i + 1)).neg) ∨
    (dot (r i) (r (i + 1)) = if dot (a (i + 1)) (r i) < 1 / 2 then -dot (a (i + 1)) (r i) else dot (a (i + 1)) (r i)) ∧
      (r i = a i ∨ r i = (a i).neg) := by
  obtain ⟨s1, s2, s3⟩ := dominant_spec n idx h0 h1 a ha rough
  intro r
  by_cases h : i < idx
  · left
    refine ⟨?_, dominant_sign n idx h0 h1 a ha rough _ (by omega) hi'⟩
    show dot (dominant n a rough idx i) _ = _
    rw [s2 i hi h, turned_dot]
  · right
    refine ⟨?_, dominant_sign n idx h0 h1 a ha rough _ (by omega) (by omega)⟩
    show dot _ (dominant n a rough idx (i + 1)) = _
    rw [s3 (i + 1) (by omega) hi', add_sub_cancel_right, dot_comm, turned_dot]

/-- C53 as far as it goes: where neighbouring axes are at most 60 degrees apart, the results are on the same
side. -/
theorem dominant_continuous_partial (n idx : Int) (h0 : 0 ≤ idx) (h1 : idx < n) (a : Int → V) (ha : Units n a) (rough : V) (i : Int)
    (hi : 0 ≤ i) (hi' : i + 1 < n) (hclose : 1 / 2 ≤ |dot (a i) (a (i + 1))|) :
    dot (dominant n a rough idx i) (dominant n a rough idx (i + 1)) = |dot (a i) (a (i + 1))| := by
  rw [le_abs] at hclose
  have key : ∀ c, (c = dot (a i) (a (i + 1)) ∨ c = -dot (a i) (a (i + 1))) →
      (if c < 1 / 2 then -c else c) = |dot (a i) (a (i + 1))| := by
    rintro c (rfl | rfl)
    · split
      · rename_i h; rw [abs_of_neg]; rcases hclose with h' | h' <;> linarith
      · rename_i h; rw [abs_of_nonneg]; linarith
    · split
      · rename_i h; rw [abs_of_nonneg, neg_neg]; rcases hclose with h' | h' <;> linarith
      · rename_i h; rw [abs_of_neg]; linarith
  rcases consecutive n idx h0 h1 a ha rough i hi hi' with ⟨h, h'⟩ | ⟨h, h'⟩
  · rw [h]
    apply key
    rcases h' with h' | h' <;> rw [h']
    · left; rfl
    · right; rw [dot_comm, dot_neg, dot_comm]
  · rw [h]
    apply key
    rcases h' with h' | h' <;> rw [h']
    · left; exact dot_comm _ _
    · right; rw [dot_comm, dot_neg]

/-- C53: further apart, the sign is not chosen by the side: a row that makes an acute angle of more than 60 degrees
with its neighbour's result is turned to make an obtuse one. -/
theorem dominant_wrong_side (n idx : Int) (h0 : 0 ≤ idx) (a : Int → V) (ha : Units n a) (rough : V) (i : Int)
    (hi : idx ≤ i) (hi' : i + 1 < n) (hc : 0 < dot (a (i + 1)) (dominant n a rough idx i))
    (hc' : dot (a (i + 1)) (dominant n a rough idx i) < 1 / 2) :
    dot (dominant n a rough idx i) (dominant n a rough idx (i + 1)) < 0 := by
  obtain ⟨s1, s2, s3⟩ := dominant_spec n idx h0 (by omega) a ha rough
  rw [s3 (i + 1) (by omega) hi', add_sub_cancel_right, dot_comm, turned_dot, if_pos hc']
  linarith

/-- The `x` axis, then a vector about 74 degrees from it. -/
noncomputable def pair : Int → V := fun i => if i = 0 then ⟨1, 0, 0⟩ else ⟨7 / 25, 24 / 25, 0⟩

theorem pair_units : Units 2 pair := by
  intro i h1 h2
  have : i = 0 ∨ i = 1 := by omega
  rcases this with rfl | rfl
  · norm_num [pair, dot]
  · norm_num [pair, dot]

/-- C53 is false: with these two vectors, which are on the same side, the result is not. -/
theorem dominant_not_continuous : ∃ (n idx : Int) (a : Int → V) (rough : V), 0 ≤ idx ∧ idx < n ∧ Units n a ∧
    0 < dot (a 0) (a 1) ∧ 0 ≤ dot rough (a 0) ∧ dot (dominant n a rough idx 0) (dominant n a rough idx 1) < 0 := by
  refine ⟨2, 0, pair, ⟨1, 0, 0⟩, by decide, by decide, pair_units, by norm_num [pair, dot], by norm_num [pair, dot], ?_⟩
  have h0 : dominant 2 pair ⟨1, 0, 0⟩ 0 0 = ⟨1, 0, 0⟩ := by
    rw [(dominant_spec 2 0 (by decide) (by decide) pair pair_units ⟨1, 0, 0⟩).1]
    norm_num [pair, dot]
  apply dominant_wrong_side 2 0 (by decide) pair pair_units ⟨1, 0, 0⟩ 0 (by decide) (by decide)
  · rw [h0]; norm_num [pair, dot]
  · rw [h0]; norm_num [pair, dot]

/-- C53: a negative index, which numpy takes to count from the end, is not supported: with index -1 the loop
starts from row 0 and turns the last row once more, here away from the rough direction. -/
theorem dominant_negative_index : dot ⟨7 / 25, 24 / 25, 0⟩ (pair 1) = 1 ∧
    dot ⟨7 / 25, 24 / 25, 0⟩ (dominant 2 pair ⟨7 / 25, 24 / 25, 0⟩ (-1) 1) = -1 := by
  constructor
  · norm_num [pair, dot]
  · have ho : orient 2 pair ⟨7 / 25, 24 / 25, 0⟩ (-1) = pair := by
      unfold orient wrap; norm_num [pair]
    have hs : start 2 (-1) pair = ⟨pair, 1⟩ := start_unit _ _ _ (by norm_num [wrap, pair, dot])
    have hb : backward (-1) = [] := rfl
    have hf : pyRange (-1 + 1) 2 = [0, 1] := by decide
    have hd : dominant 2 pair ⟨7 / 25, 24 / 25, 0⟩ (-1) = finish 2 (-1) (step 2 1 (step 2 1 ⟨pair, 1⟩ 0) 1) := by
      unfold dominant
      simp only
      rw [ho, hs, hb, hf]
      simp only [List.foldl_nil, List.foldl_cons]
      rw [finish_unit, hs]
    rw [hd, step_unit 2 1 pair 0 (by norm_num [wrap, pair, dot]) (by norm_num [wrap, pair, dot]), step_unit, finish_unit]
    · norm_num [wrap, pair, dot, turned, V.neg]
    · norm_num [wrap, pair, dot, turned, V.neg]
    · norm_num [wrap, pair, dot, turned, V.neg]

/-- Non-vacuity of the partial theorem: the `x` axis twice with opposite signs. -/
example : 1 / 2 ≤ |dot ⟨1, 0, 0⟩ ⟨-1, 0, 0⟩| := by norm_num [dot]

end Verif.Props.Dominant
