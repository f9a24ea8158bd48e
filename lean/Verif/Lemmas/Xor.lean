import Verif.Model.Xor
import Verif.Spec.Xor

namespace Verif.Xor
open Verif.Spec.Xor

theorem length_xorAt (u : List Row) (i : Nat) : (xorAt u i).length = u.length := by
  simp [xorAt]

theorem length_foldl_xorAt (l : List Nat) (u : List Row) :
    (l.foldl xorAt u).length = u.length := by
  induction l generalizing u with
  | nil => rfl
  | cons a l ih => simp [ih, length_xorAt]

theorem getD_xorAt (u : List Row) (i j : Nat) (hi : i < u.length) :
    (xorAt u i).getD j [] =
      if j = i then rowXor (u.getD (i - 1) []) (u.getD i []) else u.getD j [] := by
  unfold xorAt
  by_cases h : j = i
  · subst h
    simp [List.getD_eq_getElem?_getD, hi]
  · have h' : ¬ i = j := fun e => h e.symm
    simp [List.getD_eq_getElem?_getD, List.getElem?_set, h, h']

theorem down_getD (k : Nat) (u : List Row) (hk : k < u.length) (j : Nat) :
    ((List.range' 1 k).reverse.foldl xorAt u).getD j [] =
      if 1 ≤ j ∧ j ≤ k then rowXor (u.getD (j - 1) []) (u.getD j []) else u.getD j [] := by
  induction k generalizing u with
  | zero => simp; intro h h'; omega
  | succ k ih =>
    rw [List.range'_concat]
    simp only [List.reverse_append, List.reverse_cons, List.reverse_nil, List.nil_append,
      List.singleton_append, List.foldl_cons]
    rw [ih (xorAt u (1 + 1 * k)) (by rw [length_xorAt]; omega)]
    have e : 1 + 1 * k = k + 1 := by omega
    rw [e, getD_xorAt u (k + 1) _ hk, getD_xorAt u (k + 1) _ hk]
    by_cases h1 : 1 ≤ j ∧ j ≤ k
    · rw [if_pos h1, if_neg (by omega), if_neg (by omega), if_pos (by omega)]
    · rw [if_neg h1]
      by_cases h2 : j = k + 1
      · subst h2; simp
      · rw [if_neg h2, if_neg (by omega)]

/-- running XOR of rows -/
def acc (u : List Row) : Nat → Row
  | 0 => u.getD 0 []
  | i + 1 => rowXor (acc u i) (u.getD (i + 1) [])

theorem up_getD (k : Nat) (u : List Row) (hk : k < u.length) (j : Nat) :
    ((List.range' 1 k).foldl xorAt u).getD j [] = if j ≤ k then acc u j else u.getD j [] := by
  induction k generalizing j with
  | zero =>
    by_cases h : j = 0
    · subst h; simp [acc]
    · simp [h]
  | succ k ih =>
    rw [List.range'_concat]
    simp only [List.foldl_append, List.foldl_cons, List.foldl_nil]
    have e : 1 + 1 * k = k + 1 := by omega
    rw [e, getD_xorAt _ _ _ (by rw [length_foldl_xorAt]; omega)]
    by_cases h : j = k + 1
    · subst h
      rw [if_pos rfl, if_pos (by omega), Nat.add_sub_cancel, ih (by omega), ih (by omega),
        if_pos (by omega), if_neg (by omega)]
      rfl
    · rw [if_neg h, ih (by omega)]
      by_cases h2 : j ≤ k
      · rw [if_pos h2, if_pos (by omega)]
      · rw [if_neg h2, if_neg (by omega)]

theorem ext_getD {u v : List Row} (hl : u.length = v.length)
    (h : ∀ i, i < u.length → u.getD i [] = v.getD i []) : u = v := by
  apply List.ext_getElem hl
  intro i h1 h2
  have := h i h1
  simpa [List.getD_eq_getElem?_getD, h1, h2] using this

theorem rect_getD {m : Nat} {u : List Row} (h : Rect m u) {i : Nat} (hi : i < u.length) :
    (u.getD i []).length = m := by
  have : u.getD i [] = u[i] := by simp [List.getD_eq_getElem?_getD, hi]
  rw [this]; exact h _ (List.getElem_mem hi)

theorem getD_rowXor {x y : Row} (h : x.length = y.length) (j : Nat) :
    (rowXor x y).getD j 0 = x.getD j 0 ^^^ y.getD j 0 := by
  unfold rowXor
  induction x generalizing y j with
  | nil => cases y with
    | nil => simp
    | cons => simp at h
  | cons a x ih => cases y with
    | nil => simp at h
    | cons b y => cases j with
      | zero => simp
      | succ j => simpa using ih (by simpa using h) j

theorem length_rowXor {x y : Row} {m : Nat} (hx : x.length = m) (hy : y.length = m) :
    (rowXor x y).length = m := by simp [rowXor, hx, hy]

theorem row_ext {x y : Row} (hl : x.length = y.length) (h : ∀ j, x.getD j 0 = y.getD j 0) :
    x = y := by
  apply List.ext_getElem hl
  intro i h1 h2
  have := h i
  simpa [List.getD_eq_getElem?_getD, h1, h2] using this

theorem rowXor_self_left {x y : Row} (h : x.length = y.length) : rowXor x (rowXor x y) = y := by
  apply row_ext (by simp [rowXor, h])
  intro j
  rw [getD_rowXor (by simp [rowXor, h]), getD_rowXor h, ← BitVec.xor_assoc, BitVec.xor_self,
    BitVec.zero_xor]

theorem length_acc {m : Nat} {u : List Row} (hu : Rect m u) (i : Nat) (hi : i < u.length) :
    (acc u i).length = m := by
  induction i with
  | zero => exact rect_getD hu hi
  | succ i ih => exact length_rowXor (ih (by omega)) (rect_getD hu hi)

theorem acc_eq_prefix {m : Nat} {u : List Row} (hu : Rect m u) (i j : Nat) (hi : i < u.length) :
    (acc u i).getD j 0 = prefixXor u j i := by
  induction i with
  | zero => rfl
  | succ i ih =>
    show (rowXor (acc u i) (u.getD (i + 1) [])).getD j 0 = _
    rw [getD_rowXor, ih (by omega)]
    · rfl
    · rw [length_acc hu i (by omega), rect_getD hu hi]

theorem enc_getD (u : List Row) (i : Nat) (hi : i < u.length) :
    (xorTimeseries u).getD i [] =
      if i = 0 then u.getD 0 [] else rowXor (u.getD (i - 1) []) (u.getD i []) := by
  unfold xorTimeseries
  rw [down_getD _ _ (by omega)]
  by_cases h : i = 0
  · subst h; simp
  · rw [if_pos (by omega), if_neg h]

theorem dec_getD (u : List Row) (i : Nat) (hi : i < u.length) :
    (xorTimeseriesReverse u).getD i [] = acc u i := by
  unfold xorTimeseriesReverse
  rw [up_getD _ _ (by omega), if_pos (by omega)]

theorem length_enc (u : List Row) : (xorTimeseries u).length = u.length :=
  length_foldl_xorAt _ _

theorem length_dec (u : List Row) : (xorTimeseriesReverse u).length = u.length :=
  length_foldl_xorAt _ _

theorem rect_of_getD {m : Nat} {u : List Row}
    (h : ∀ i, i < u.length → (u.getD i []).length = m) : Rect m u := by
  intro r hr
  obtain ⟨i, hi, rfl⟩ := List.getElem_of_mem hr
  have := h i hi
  simpa [List.getD_eq_getElem?_getD, hi] using this

theorem rect_enc {m : Nat} {u : List Row} (hu : Rect m u) : Rect m (xorTimeseries u) := by
  apply rect_of_getD
  intro i hi
  rw [length_enc] at hi
  rw [enc_getD u i hi]
  split
  · exact rect_getD hu (by omega)
  · exact length_rowXor (rect_getD hu (by omega)) (rect_getD hu hi)

theorem rect_dec {m : Nat} {u : List Row} (hu : Rect m u) :
    Rect m (xorTimeseriesReverse u) := by
  apply rect_of_getD
  intro i hi
  rw [length_dec] at hi
  rw [dec_getD u i hi, length_acc hu i hi]

end Verif.Xor
