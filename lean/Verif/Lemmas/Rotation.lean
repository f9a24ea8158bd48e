import Verif.Spec.Rotation
import Verif.Lemmas.Wigner
import Verif.Lemmas.Modes
import Mathlib.Algebra.BigOperators.Intervals
import Mathlib.Order.Interval.Finset.Basic
import Mathlib.Data.Int.Interval
import Mathlib.Tactic.Linarith

/-!
# The loops of the rotation functions compute matrix products
-/

namespace Verif.Rotation
open Verif.Modes Verif.Wigner Verif.Spec.Rotation

/-- Writing `val c` at `pos c` for all `c` in a list, positions distinct. -/
theorem foldl_set_mem {ι : Type} (pos : ι → Int) (val : ι → ℂ) (L : List ι) (r : Row ℂ)
    (hinj : ∀ x ∈ L, ∀ y ∈ L, pos x = pos y → x = y) (x : ι) (hx : x ∈ L) :
    L.foldl (fun r c => r.set (pos c) (val c)) r (pos x) = val x := by
  induction L using List.reverseRecOn with
  | nil => simp at hx
  | append_singleton L y ih =>
    rw [List.foldl_append, List.foldl_cons, List.foldl_nil]
    by_cases h : pos x = pos y
    · have := hinj x hx y (by simp) h
      subst this; simp
    · rw [Row.set_ne _ _ h]
      apply ih
      · intro a ha b hb; exact hinj a (by simp [ha]) b (by simp [hb])
      · rcases List.mem_append.mp hx with hx | hx
        · exact hx
        · simp at hx; subst hx; exact absurd rfl h

theorem foldl_set_not_mem {ι : Type} (pos : ι → Int) (val : ι → ℂ) (L : List ι) (r : Row ℂ) (j : Int)
    (h : ∀ x ∈ L, pos x ≠ j) : L.foldl (fun r c => r.set (pos c) (val c)) r j = r j := by
  induction L using List.reverseRecOn with
  | nil => rfl
  | append_singleton L y ih =>
    rw [List.foldl_append, List.foldl_cons, List.foldl_nil, Row.set_ne _ _ (fun he => h y (by simp) he.symm)]
    exact ih (fun x hx => h x (by simp [hx]))

/-! ### Where the matrices are stored -/

theorem matOffset_succ {ell a : Int} (h : a ≤ ell) : matOffset (ell + 1) a = matOffset ell a + (2 * ell + 1) ^ 2 := by
  unfold matOffset
  rw [pyRange_snoc h]
  simp

theorem matOffset_mono {ell a : Int} (h : a ≤ ell) (k : Nat) : matOffset ell a ≤ matOffset (ell + k) a := by
  induction k with
  | zero => simp
  | succ k ih =>
    have : (ell + ((k + 1 : Nat) : Int)) = (ell + k) + 1 := by push_cast; ring
    rw [this, matOffset_succ (by omega)]
    have := sq_nonneg (2 * (ell + (k : Int)) + 1)
    linarith

theorem cell_bounds {ell i j : Int} (hi : 0 ≤ i ∧ i < 2 * ell + 1) (hj : 0 ≤ j ∧ j < 2 * ell + 1) :
    0 ≤ (2 * ell + 1) * i + j ∧ (2 * ell + 1) * i + j < (2 * ell + 1) ^ 2 := by
  constructor
  · nlinarith
  · nlinarith

/-- Cells of different `ell` are stored at different places. -/
theorem block_disjoint {a ell ell' x y : Int} (h : a ≤ ell) (h' : a ≤ ell') (hne : ell ≠ ell')
    (hx : 0 ≤ x ∧ x < (2 * ell + 1) ^ 2) (hy : 0 ≤ y ∧ y < (2 * ell' + 1) ^ 2) :
    matOffset ell a + x ≠ matOffset ell' a + y := by
  rcases lt_or_gt_of_ne hne with hl | hl
  · have := matOffset_mono (ell := ell + 1) (a := a) (by omega) (ell' - (ell + 1)).toNat
    rw [show ell + 1 + ((ell' - (ell + 1)).toNat : Int) = ell' by omega, matOffset_succ h] at this
    omega
  · have := matOffset_mono (ell := ell' + 1) (a := a) (by omega) (ell - (ell' + 1)).toNat
    rw [show ell' + 1 + ((ell - (ell' + 1)).toNat : Int) = ell by omega, matOffset_succ h'] at this
    omega

theorem mem_cells {a b ell i j : Int} :
    (ell, i, j) ∈ cells a b ↔ (a ≤ ell ∧ ell ≤ b) ∧ (0 ≤ i ∧ i < 2 * ell + 1) ∧ (0 ≤ j ∧ j < 2 * ell + 1) := by
  unfold cells
  simp only [List.mem_flatMap, List.mem_map, mem_pyRange, Prod.mk.injEq]
  constructor
  · rintro ⟨e, he, i', hi, j', hj, rfl, rfl, rfl⟩
    exact ⟨by omega, hi, hj⟩
  · rintro ⟨he, hi, hj⟩
    exact ⟨ell, by omega, i, hi, j, hj, rfl, rfl, rfl⟩

theorem row_col_inj {w i j i' j' : Int} (hj : 0 ≤ j ∧ j < w) (hj' : 0 ≤ j' ∧ j' < w)
    (h : w * i + j = w * i' + j') : i = i' ∧ j = j' := by
  have key : i = i' := by
    rcases lt_trichotomy i i' with hl | hl | hl
    · exfalso
      have : w * (i + 1) ≤ w * i' := mul_le_mul_of_nonneg_left (by omega) (by omega)
      rw [mul_add] at this; omega
    · exact hl
    · exfalso
      have : w * (i' + 1) ≤ w * i := mul_le_mul_of_nonneg_left (by omega) (by omega)
      rw [mul_add] at this; omega
  subst key
  exact ⟨rfl, by omega⟩

theorem fillD_cell (R : Quaternion ℝ) (a b : Int) (D : Row ℂ) {ell i j : Int} (he : a ≤ ell ∧ ell ≤ b)
    (hi : 0 ≤ i ∧ i < 2 * ell + 1) (hj : 0 ≤ j ∧ j < 2 * ell + 1) :
    fillD R a b D (matOffset ell a + (2 * ell + 1) * i + j) = Dlm ell R (i - ell) (j - ell) := by
  unfold fillD
  refine foldl_set_mem (cellPos a) (fun c => Dlm c.1 R (c.2.1 - c.1) (c.2.2 - c.1)) (cells a b) D ?_ (ell, i, j)
    (mem_cells.mpr ⟨he, hi, hj⟩)
  rintro ⟨e, i1, j1⟩ h1 ⟨e', i2, j2⟩ h2 hp
  obtain ⟨g1, g2, g3⟩ := mem_cells.mp h1
  obtain ⟨k1, k2, k3⟩ := mem_cells.mp h2
  simp only [cellPos] at hp
  by_cases hee : e = e'
  · subst hee
    obtain ⟨rfl, rfl⟩ := row_col_inj (w := 2 * e + 1) (i := i1) (i' := i2) g3 k3 (by omega)
    rfl
  · exfalso
    apply block_disjoint g1.1 k1.1 hee (cell_bounds g2 g3) (cell_bounds k2 k3)
    omega

/-! ### Data positions -/

/-- The column of `(ell, i)` in the data is that of the mode `(ell, i - ell)`. -/
theorem data_col (ell i a : Int) : ell ^ 2 - a ^ 2 + i = lmIndex ell (i - ell) a := by
  unfold lmIndex; ring

theorem data_col_inj {ell i ell' i' a : Int} (h : 0 ≤ i ∧ i < 2 * ell + 1) (h' : 0 ≤ i' ∧ i' < 2 * ell' + 1)
    (he : ell ^ 2 - a ^ 2 + i = ell' ^ 2 - a ^ 2 + i') : ell = ell' ∧ i = i' := by
  rw [data_col, data_col] at he
  have := lmIndex_inj (by omega) (by omega) he
  omega

/-- Copying the new values of one `ell` into the data. -/
theorem copy_spec (ell a : Int) (v : Int → ℂ) (row : Row ℂ) (ell' i : Int) (hi : 0 ≤ i ∧ i < 2 * ell' + 1) :
    (pyRange 0 (2 * ell + 1)).foldl (fun row im => row.set (ell ^ 2 - a ^ 2 + im) (v im)) row
      (ell' ^ 2 - a ^ 2 + i) = if ell' = ell then v i else row (ell' ^ 2 - a ^ 2 + i) := by
  by_cases h : ell' = ell
  · subst h
    rw [if_pos rfl]
    refine foldl_set_mem (fun im => ell' ^ 2 - a ^ 2 + im) v _ row ?_ i (mem_pyRange.mpr hi)
    intro x _ y _ hxy
    omega
  · rw [if_neg h]
    refine foldl_set_not_mem (fun im => ell ^ 2 - a ^ 2 + im) v _ row _ ?_
    intro x hx he
    rw [mem_pyRange] at hx
    exact h (data_col_inj hx hi he).1.symm

/-! ### The new modes -/

/-- `Σ_{i'} row[i'] M[i', i]` over the block of `ell`. -/
noncomputable def blockSum (n : Int) (f : Int → ℂ) : ℂ := ((pyRange 0 n).map f).sum

theorem foldl_add_eq (L : List Int) (f : Int → ℂ) (s : ℂ) :
    L.foldl (fun s i => s + f i) s = s + (L.map f).sum := by
  induction L generalizing s with
  | nil => simp
  | cons x L ih => simp only [List.foldl_cons, List.map_cons, List.sum_cons]; rw [ih]; ring

theorem blockSum_eq (ell : Int) (h : 0 ≤ ell) (f : Int → ℂ) :
    blockSum (2 * ell + 1) f = ∑ m ∈ Finset.Icc (-ell) ell, f (m + ell) := by
  unfold blockSum
  have h1 : ((pyRange 0 (2 * ell + 1)).map f).sum = ∑ i ∈ (pyRange 0 (2 * ell + 1)).toFinset, f i :=
    (List.sum_toFinset f (pyRange_nodup _ _)).symm
  rw [h1]
  apply Finset.sum_nbij' (fun i => i - ell) (fun m => m + ell)
  · intro i hi; rw [List.mem_toFinset, mem_pyRange] at hi; rw [Finset.mem_Icc]; omega
  · intro m hm; rw [Finset.mem_Icc] at hm; rw [List.mem_toFinset, mem_pyRange]; omega
  · intro i _; omega
  · intro m _; omega
  · intro i _; simp

theorem const_inner (f : Int → ℂ) (tmp : Row ℂ) (n j : Int) :
    (pyRange 0 n).foldl (fun (tmp : Row ℂ) im => tmp.set im (tmp im + f im)) tmp j =
      if 0 ≤ j ∧ j < n then tmp j + f j else tmp j := by
  by_cases hn : n < 0
  · rw [pyRange_empty (by omega), if_neg (by omega)]; rfl
  · have : ∀ k : Nat, (pyRange 0 (k : Int)).foldl (fun (tmp : Row ℂ) im => tmp.set im (tmp im + f im)) tmp j =
        if 0 ≤ j ∧ j < (k : Int) then tmp j + f j else tmp j := by
      intro k
      induction k generalizing j with
      | zero => rw [pyRange_empty (by simp), if_neg (by simp)]; rfl
      | succ k ih =>
        rw [show ((k + 1 : Nat) : Int) = (k : Int) + 1 by push_cast; rfl, pyRange_snoc (by omega),
          List.foldl_append, List.foldl_cons, List.foldl_nil]
        by_cases hj : j = k
        · subst hj
          rw [Row.set_self, ih, if_neg (by omega), if_pos (by omega)]
        · rw [Row.set_ne _ _ hj, ih]
          by_cases hjk : 0 ≤ j ∧ j < (k : Int)
          · rw [if_pos hjk, if_pos (by omega)]
          · rw [if_neg hjk, if_neg (by omega)]
    have h2 := this n.toNat
    rwa [show (n.toNat : Int) = n by omega] at h2

theorem const_outer (g : Int → Int → ℂ) (n : Int) (L : List Int) (tmp : Row ℂ) (j : Int) (hj : 0 ≤ j ∧ j < n) :
    L.foldl (fun (tmp : Row ℂ) imp =>
      (pyRange 0 n).foldl (fun (tmp : Row ℂ) im => tmp.set im (tmp im + g imp im)) tmp) tmp j =
      tmp j + (L.map fun i => g i j).sum := by
  induction L generalizing tmp with
  | nil => simp
  | cons x L ih =>
    simp only [List.foldl_cons, List.map_cons, List.sum_cons]
    rw [ih, const_inner (g x) tmp n j, if_pos hj]; ring

/-- One pass over `ell` with a constant rotor. -/
theorem constEll_spec (D : Row ℂ) (a ell : Int) (st : Row ℂ × Row ℂ) (ell' i : Int)
    (hi : 0 ≤ i ∧ i < 2 * ell' + 1) :
    (constEll D a st ell).1 (ell' ^ 2 - a ^ 2 + i) =
      if ell' = ell then blockSum (2 * ell + 1) (fun i' => st.1 (ell ^ 2 - a ^ 2 + i') *
        D (matOffset ell a + (2 * ell + 1) * i' + i)) else st.1 (ell' ^ 2 - a ^ 2 + i) := by
  unfold constEll
  simp only
  rw [copy_spec ell a _ st.1 ell' i hi]
  by_cases h : ell' = ell
  · subst h
    rw [if_pos rfl, if_pos rfl]
    rw [const_outer (fun imp im => st.1 (ell' ^ 2 - a ^ 2 + imp) * D (matOffset ell' a + (2 * ell' + 1) * imp + im))
      (2 * ell' + 1) _ _ i hi]
    rw [foldl_set_mem (fun im => im) (fun _ => 0) _ st.2 (by intro x _ y _ h; exact h) i (mem_pyRange.mpr hi)]
    unfold blockSum; rw [zero_add]
  · rw [if_neg h, if_neg h]

/-- The in-place sums of the series version, for the first `k` columns. -/
theorem series_inner (ell a : Int) (ha : a ≤ ell) (row D : Row ℂ) (k : Nat) (hk : (k : Int) ≤ 2 * ell + 1) :
    let D' := (pyRange 0 k).foldl (fun D im =>
      D.set (matOffset ell a + im) ((pyRange 0 (2 * ell + 1)).foldl (fun s imp =>
        s + row (ell ^ 2 - a ^ 2 + imp) * D (matOffset ell a + im + (2 * ell + 1) * imp)) 0)) D
    (∀ i, 0 ≤ i ∧ i < (k : Int) → D' (matOffset ell a + i) = blockSum (2 * ell + 1) (fun i' =>
      row (ell ^ 2 - a ^ 2 + i') * D (matOffset ell a + (2 * ell + 1) * i' + i))) ∧
    (∀ p, (∀ i, 0 ≤ i ∧ i < (k : Int) → p ≠ matOffset ell a + i) → D' p = D p) := by
  induction k with
  | zero =>
    intro D'
    refine ⟨fun i hi => ?_, fun p _ => ?_⟩
    · exfalso; push_cast at hi; omega
    · rfl
  | succ k ih =>
    obtain ⟨ih1, ih2⟩ := ih (by push_cast at hk; omega)
    simp only
    rw [show ((k + 1 : Nat) : Int) = (k : Int) + 1 by push_cast; rfl,
      pyRange_snoc (a := 0) (b := (k : Int)) (by omega),
      List.foldl_append, List.foldl_cons, List.foldl_nil]
    generalize hD : (pyRange 0 (k : Int)).foldl _ D = E at ih1 ih2 ⊢
    refine ⟨fun i hi => ?_, fun p hp => ?_⟩
    · by_cases hik : i = k
      · subst hik
        rw [Row.set_self, foldl_add_eq (pyRange 0 (2 * ell + 1)) (fun imp => row (ell ^ 2 - a ^ 2 + imp) *
          E (matOffset ell a + (k : Int) + (2 * ell + 1) * imp)) 0, zero_add]
        unfold blockSum
        congr 1
        apply List.map_congr_left
        intro i' hi'
        rw [mem_pyRange] at hi'
        rw [ih2]
        · congr 2; ring
        · intro j hj he
          have h1 : (2 * ell + 1) * i' + (k : Int) = (2 * ell + 1) * 0 + j := by
            push_cast at hk; omega
          have := row_col_inj (w := 2 * ell + 1) (by push_cast at hk; omega) (by push_cast at hk; omega) h1
          omega
      · rw [Row.set_ne _ _ (by omega)]
        exact ih1 i (by omega)
    · rw [Row.set_ne _ _ (hp k (by omega))]
      exact ih2 p (fun i hi => hp i (by omega))

/-- One pass over `ell` with a series of rotors. -/
theorem seriesEll_spec (a ell : Int) (h0 : 0 ≤ a) (ha : a ≤ ell) (st : Row ℂ × Row ℂ) :
    (∀ ell' i, 0 ≤ i ∧ i < 2 * ell' + 1 → (seriesEll a st ell).1 (ell' ^ 2 - a ^ 2 + i) =
      if ell' = ell then blockSum (2 * ell + 1) (fun i' => st.1 (ell ^ 2 - a ^ 2 + i') *
        st.2 (matOffset ell a + (2 * ell + 1) * i' + i)) else st.1 (ell' ^ 2 - a ^ 2 + i)) ∧
    (∀ ell', a ≤ ell' → ell' ≠ ell → ∀ x, 0 ≤ x ∧ x < (2 * ell' + 1) ^ 2 →
      (seriesEll a st ell).2 (matOffset ell' a + x) = st.2 (matOffset ell' a + x)) := by
  obtain ⟨h1, h2⟩ := series_inner ell a ha st.1 st.2 (2 * ell + 1).toNat (by omega)
  rw [show (((2 * ell + 1).toNat : Nat) : Int) = 2 * ell + 1 by omega] at h1 h2
  constructor
  · intro ell' i hi
    unfold seriesEll
    simp only
    rw [copy_spec ell a _ st.1 ell' i hi]
    by_cases h : ell' = ell
    · subst h
      rw [if_pos rfl, if_pos rfl]
      exact h1 i hi
    · rw [if_neg h, if_neg h]
  · intro ell' he hne x hx
    unfold seriesEll
    simp only
    apply h2
    intro i hi
    have : (i : Int) < (2 * ell + 1) ^ 2 := by nlinarith
    exact block_disjoint he ha hne hx ⟨hi.1, this⟩

/-- The mode `(ell, m)` after rotation of the row by `R`. -/
noncomputable def rotMode (R : Quaternion ℝ) (a : Int) (row : Row ℂ) (ell m : Int) : ℂ :=
  ∑ m' ∈ Finset.Icc (-ell) ell, row (lmIndex ell m' a) * Dlm ell R m' m

theorem blockSum_rotMode (R : Quaternion ℝ) (a ell i : Int) (h : 0 ≤ ell) (row D : Row ℂ)
    (hD : ∀ i', 0 ≤ i' ∧ i' < 2 * ell + 1 →
      D (matOffset ell a + (2 * ell + 1) * i' + i) = Dlm ell R (i' - ell) (i - ell)) :
    blockSum (2 * ell + 1) (fun i' => row (ell ^ 2 - a ^ 2 + i') *
        D (matOffset ell a + (2 * ell + 1) * i' + i)) = rotMode R a row ell (i - ell) := by
  rw [blockSum_eq ell h]
  unfold rotMode
  apply Finset.sum_congr rfl
  intro m hm
  rw [Finset.mem_Icc] at hm
  rw [hD (m + ell) (by omega), data_col, show m + ell - ell = m by ring]

/-- The loop over `ell` of the constant version. -/
theorem constRow_spec (R : Quaternion ℝ) (a b : Int) (h0 : 0 ≤ a) (D row tmp : Row ℂ) (e : Nat)
    (he : a + e ≤ b + 1) :
    ∀ ell i, a ≤ ell → ell ≤ b → 0 ≤ i ∧ i < 2 * ell + 1 →
      ((pyRange a (a + e)).foldl (constEll (fillD R a b D) a) (row, tmp)).1 (ell ^ 2 - a ^ 2 + i) =
        if ell < a + e then rotMode R a row ell (i - ell) else row (ell ^ 2 - a ^ 2 + i) := by
  induction e with
  | zero =>
    intro ell i h1 h2 hi
    rw [pyRange_empty (by simp), if_neg (by push_cast; omega)]; rfl
  | succ e ih =>
    intro ell i h1 h2 hi
    push_cast at he
    rw [show a + ((e + 1 : Nat) : Int) = (a + e) + 1 by push_cast; ring, pyRange_snoc (by omega),
      List.foldl_append, List.foldl_cons, List.foldl_nil, constEll_spec _ _ _ _ _ _ hi]
    by_cases hee : ell = a + e
    · rw [if_pos hee, if_pos (by omega), ← hee]
      have : ∀ i', i' ∈ pyRange 0 (2 * ell + 1) →
          ((pyRange a ell).foldl (constEll (fillD R a b D) a) (row, tmp)).1 (ell ^ 2 - a ^ 2 + i') =
            row (ell ^ 2 - a ^ 2 + i') := by
        intro i' hi'
        rw [mem_pyRange] at hi'
        have h := ih (by omega) ell i' h1 h2 hi'
        rw [if_neg (by omega), ← hee] at h
        exact h
      rw [← blockSum_rotMode R a ell i (by omega) row (fillD R a b D)
        (fun i' hi' => fillD_cell R a b D ⟨h1, h2⟩ hi' hi)]
      unfold blockSum
      congr 1
      apply List.map_congr_left
      intro i' hi'
      rw [this i' hi']
    · rw [if_neg hee, ih (by omega) ell i h1 h2 hi]
      by_cases hl : ell < a + e
      · rw [if_pos hl, if_pos (by omega)]
      · rw [if_neg hl, if_neg (by omega)]

/-- The loop over `ell` of the series version. -/
theorem seriesRow_spec (R : Quaternion ℝ) (a b : Int) (h0 : 0 ≤ a) (D row : Row ℂ) (e : Nat)
    (he : a + e ≤ b + 1) :
    (∀ ell i, a ≤ ell → ell ≤ b → 0 ≤ i ∧ i < 2 * ell + 1 →
      ((pyRange a (a + e)).foldl (seriesEll a) (row, fillD R a b D)).1 (ell ^ 2 - a ^ 2 + i) =
        if ell < a + e then rotMode R a row ell (i - ell) else row (ell ^ 2 - a ^ 2 + i)) ∧
    (∀ ell, a + e ≤ ell → ∀ x, 0 ≤ x ∧ x < (2 * ell + 1) ^ 2 →
      ((pyRange a (a + e)).foldl (seriesEll a) (row, fillD R a b D)).2 (matOffset ell a + x) =
        fillD R a b D (matOffset ell a + x)) := by
  induction e with
  | zero =>
    refine ⟨?_, ?_⟩
    · intro ell i h1 h2 hi
      rw [pyRange_empty (by simp), if_neg (by push_cast; omega)]; rfl
    · intro ell h1 x hx
      rw [pyRange_empty (by simp)]; rfl
  | succ e ih =>
    push_cast at he
    obtain ⟨ih1, ih2⟩ := ih (by omega)
    rw [show a + ((e + 1 : Nat) : Int) = (a + e) + 1 by push_cast; ring, pyRange_snoc (by omega),
      List.foldl_append, List.foldl_cons, List.foldl_nil]
    generalize (pyRange a (a + (e : Int))).foldl (seriesEll a) (row, fillD R a b D) = st at ih1 ih2 ⊢
    obtain ⟨s1, s2⟩ := seriesEll_spec a (a + e) h0 (by omega) st
    refine ⟨?_, ?_⟩
    · intro ell i h1 h2 hi
      rw [s1 ell i hi]
      by_cases hee : ell = a + e
      · rw [if_pos hee, if_pos (by omega), ← hee]
        rw [← blockSum_rotMode R a ell i (by omega) row (fillD R a b D)
          (fun i' hi' => fillD_cell R a b D ⟨h1, h2⟩ hi' hi)]
        unfold blockSum
        congr 1
        apply List.map_congr_left
        intro i' hi'
        rw [mem_pyRange] at hi'
        have hd := ih1 ell i' h1 h2 hi'
        rw [if_neg (by omega)] at hd
        have hc := cell_bounds hi' hi
        have hm := ih2 ell (by omega) _ hc
        rw [hd, show matOffset ell a + (2 * ell + 1) * i' + i = matOffset ell a + ((2 * ell + 1) * i' + i) by ring, hm]
      · rw [if_neg hee, ih1 ell i h1 h2 hi]
        by_cases hl : ell < a + e
        · rw [if_pos hl, if_pos (by omega)]
        · rw [if_neg hl, if_neg (by omega)]
    · intro ell h1 x hx
      rw [s2 ell (by omega) (by omega) x hx]
      exact ih2 ell (by omega) x hx

/-! ### The representation in terms of `ell`, `m` -/

theorem sum_m (ell : Int) (h : 0 ≤ ell) (g : ℕ → ℂ) :
    ∑ j ∈ Finset.range ((2 * ell).toNat + 1), g j = ∑ m ∈ Finset.Icc (-ell) ell, g (ell + m).toNat := by
  apply Finset.sum_nbij' (fun j : ℕ => (j : Int) - ell) (fun m : Int => (ell + m).toNat)
  · intro j hj; rw [Finset.mem_range] at hj; rw [Finset.mem_Icc]; omega
  · intro m hm; rw [Finset.mem_Icc] at hm; rw [Finset.mem_range]; omega
  · intro j _; simp
  · intro m hm; rw [Finset.mem_Icc] at hm; omega
  · intro j _; congr 1; omega

theorem Dlm_mul (ell : Int) (R S : Quaternion ℝ) (m k : Int) (hm : -ell ≤ m ∧ m ≤ ell) (hk : -ell ≤ k ∧ k ≤ ell) :
    Dlm ell (R * S) m k = ∑ j ∈ Finset.Icc (-ell) ell, Dlm ell R m j * Dlm ell S j k := by
  unfold Dlm
  rw [D_mul _ _ _ _ _ (by omega) (by omega), sum_m ell (by omega)]

theorem Dlm_one (ell m k : Int) (hm : -ell ≤ m ∧ m ≤ ell) (hk : -ell ≤ k ∧ k ≤ ell) :
    Dlm ell 1 m k = if m = k then 1 else 0 := by
  unfold Dlm
  rw [D_one _ _ _ (by omega) (by omega)]
  by_cases h : m = k
  · rw [if_pos h, if_pos (by omega)]
  · rw [if_neg h, if_neg (by omega)]

open ComplexConjugate in
theorem Dlm_star (ell : Int) (R : Quaternion ℝ) (m k : Int) (hm : -ell ≤ m ∧ m ≤ ell) (hk : -ell ≤ k ∧ k ≤ ell) :
    Dlm ell (star R) m k = conj (Dlm ell R k m) := D_star _ _ _ _ (by omega) (by omega)

theorem rot_rot (ell : Int) (R S : Quaternion ℝ) (f : Int → ℂ) (m : Int) (hm : -ell ≤ m ∧ m ≤ ell) :
    rot ell S (rot ell R f) m = rot ell (R * S) f m := by
  unfold rot
  simp only [Finset.sum_mul]
  rw [Finset.sum_comm]
  apply Finset.sum_congr rfl
  intro m' hm'
  rw [Finset.mem_Icc] at hm'
  rw [Dlm_mul ell R S m' m hm' hm, Finset.mul_sum]
  apply Finset.sum_congr rfl
  intro j _
  ring

theorem rot_one (ell : Int) (f : Int → ℂ) (m : Int) (hm : -ell ≤ m ∧ m ≤ ell) : rot ell 1 f m = f m := by
  unfold rot
  have : ∀ m' ∈ Finset.Icc (-ell) ell, f m' * Dlm ell 1 m' m = if m' = m then f m' else 0 := by
    intro m' hm'
    rw [Finset.mem_Icc] at hm'
    rw [Dlm_one ell m' m hm' hm]
    split <;> simp
  rw [Finset.sum_congr rfl this, Finset.sum_ite_eq', if_pos (Finset.mem_Icc.mpr hm)]

theorem rot_congr (ell : Int) (R : Quaternion ℝ) (f g : Int → ℂ) (m : Int)
    (h : ∀ m, -ell ≤ m ∧ m ≤ ell → f m = g m) : rot ell R f m = rot ell R g m := by
  unfold rot
  apply Finset.sum_congr rfl
  intro m' hm'
  rw [h m' (Finset.mem_Icc.mp hm')]

theorem unit_left {R : Quaternion ℝ} (h : UnitRotor R) : star R * R = 1 := by
  rw [Quaternion.star_mul_self, h]; rfl

theorem unit_right {R : Quaternion ℝ} (h : UnitRotor R) : R * star R = 1 := by
  rw [Quaternion.self_mul_star, h]; rfl

theorem unit_inv {R : Quaternion ℝ} (h : UnitRotor R) : R⁻¹ = star R := by
  rw [Quaternion.inv_def, h, inv_one, one_smul]

theorem unit_star {R : Quaternion ℝ} (h : UnitRotor R) : UnitRotor (star R) := by
  unfold UnitRotor at *; rw [Quaternion.normSq_star]; exact h

theorem unit_mul {R S : Quaternion ℝ} (h : UnitRotor R) (h' : UnitRotor S) : UnitRotor (R * S) := by
  unfold UnitRotor at *; rw [map_mul, h, h']; ring

theorem unit_one : UnitRotor 1 := by unfold UnitRotor; simp

open ComplexConjugate in
theorem rot_power (ell : Int) (R : Quaternion ℝ) (hR : UnitRotor R) (f : Int → ℂ) :
    power ell (rot ell R f) = power ell f := by
  have hz : ∀ z : ℂ, ((Complex.normSq z : ℝ) : ℂ) = z * conj z := fun z => (Complex.mul_conj z).symm
  have : ((power ell (rot ell R f) : ℝ) : ℂ) = ((power ell f : ℝ) : ℂ) := by
    unfold power
    push_cast
    simp only [hz]
    -- conj (rot R f) (m) = Σ conj f m' * D(star R) m m'
    have h1 : ∀ m ∈ Finset.Icc (-ell) ell, rot ell R f m * conj (rot ell R f m) =
        ∑ k ∈ Finset.Icc (-ell) ell, rot ell R f m * Dlm ell (star R) m k * conj (f k) := by
      intro m hm
      rw [Finset.mem_Icc] at hm
      conv_lhs => rhs; unfold rot
      rw [map_sum, Finset.mul_sum]
      apply Finset.sum_congr rfl
      intro k hk
      rw [Finset.mem_Icc] at hk
      rw [map_mul, Dlm_star ell R m k hm hk]
      ring
    rw [Finset.sum_congr rfl h1, Finset.sum_comm]
    apply Finset.sum_congr rfl
    intro k hk
    rw [Finset.mem_Icc] at hk
    rw [← Finset.sum_mul]
    have := rot_rot ell R (star R) f k hk
    rw [unit_right hR, rot_one ell f k hk] at this
    conv_lhs at this => unfold rot
    rw [← this]
    rfl
  exact_mod_cast this

/-! ### The loop over the times -/

theorem byConstant_length (a b : Int) (D : Row ℂ) (data : List (Row ℂ)) (tmp : Row ℂ) :
    (byConstant a b D data tmp).length = data.length := by
  induction data generalizing tmp with
  | nil => rfl
  | cons r data ih => simp [byConstant, ih]

theorem byConstant_get (R : Quaternion ℝ) (a b : Int) (h0 : 0 ≤ a) (D : Row ℂ) (data : List (Row ℂ))
    (tmp : Row ℂ) (i : Nat) (row : Row ℂ) (hi : data[i]? = some row) :
    ∃ row', (byConstant a b (fillD R a b D) data tmp)[i]? = some row' ∧
      ∀ ell m, a ≤ ell → ell ≤ b → -ell ≤ m ∧ m ≤ ell →
        row' (lmIndex ell m a) = rot ell R (fun m => row (lmIndex ell m a)) m := by
  induction data generalizing tmp i with
  | nil => simp at hi
  | cons r data ih =>
    cases i with
    | zero =>
      simp at hi; subst hi
      refine ⟨_, rfl, ?_⟩
      intro ell m h1 h2 hm
      have h := constRow_spec R a b h0 D r tmp (b + 1 - a).toNat (by omega) ell (m + ell) h1 h2 (by omega)
      rw [show a + ((b + 1 - a).toNat : Int) = b + 1 by omega, if_pos (by omega), data_col,
        show m + ell - ell = m by ring] at h
      exact h
    | succ i => exact ih _ i (by simpa using hi)

theorem bySeries_length (a b : Int) (D : Row ℂ) (data : List (Row ℂ)) (Rs : List (Quaternion ℝ))
    (h : data.length = Rs.length) : (bySeries a b data Rs D).length = data.length := by
  induction data generalizing Rs D with
  | nil => simp [bySeries]
  | cons r data ih =>
    cases Rs with
    | nil => simp at h
    | cons R Rs => simp only [bySeries, List.length_cons]; rw [ih]; simpa using h

theorem bySeries_get (a b : Int) (h0 : 0 ≤ a) (D : Row ℂ) (data : List (Row ℂ)) (Rs : List (Quaternion ℝ))
    (i : Nat) (row : Row ℂ) (R : Quaternion ℝ) (hi : data[i]? = some row) (hR : Rs[i]? = some R) :
    ∃ row', (bySeries a b data Rs D)[i]? = some row' ∧
      ∀ ell m, a ≤ ell → ell ≤ b → -ell ≤ m ∧ m ≤ ell →
        row' (lmIndex ell m a) = rot ell R (fun m => row (lmIndex ell m a)) m := by
  induction data generalizing Rs D i with
  | nil => simp at hi
  | cons r data ih =>
    cases Rs with
    | nil => simp at hR
    | cons S Rs =>
      cases i with
      | zero =>
        simp at hi hR; subst hi; subst hR
        refine ⟨_, rfl, ?_⟩
        intro ell m h1 h2 hm
        have h := (seriesRow_spec S a b h0 D r (b + 1 - a).toNat (by omega)).1 ell (m + ell) h1 h2 (by omega)
        rw [show a + ((b + 1 - a).toNat : Int) = b + 1 by omega, if_pos (by omega), data_col,
          show m + ell - ell = m by ring] at h
        exact h
      | succ i => exact ih _ Rs i (by simpa using hi) (by simpa using hR)

end Verif.Rotation
