import Verif.Py.Basic

/-!
# Python slices

`slice.indices` and slicing of a sequence, for every combination of absent, positive and negative
bounds and steps (CPython `PySlice_Unpack`/`PySlice_AdjustIndices`; numpy basic slicing selects
the same elements).
-/

namespace Verif

/-- `slice(start, stop, step)` -/
structure PySlice where
  start : Option Int := none
  stop : Option Int := none
  step : Option Int := none
  deriving DecidableEq

/-- Resolve one bound: `None` gives `dflt`, negative values count from the end, and the result is
clamped to `[lower, upper]`. -/
def resolveBound (n : Nat) (lower upper dflt : Int) : Option Int → Int
  | none => dflt
  | some v => if v < 0 then max (v + n) lower else min v upper

/-- The positions selected by a slice in a sequence of length `n`; step 0 is a `ValueError`. -/
def PySlice.positions (s : PySlice) (n : Nat) : Py (List Nat) :=
  let step := s.step.getD 1
  if step = 0 then .error .valueError
  else if 0 < step then
    let a := resolveBound n 0 n 0 s.start
    let b := resolveBound n 0 n n s.stop
    .ok ((List.range ((b - a + step - 1) / step).toNat).map fun (k : Nat) => (a + k * step).toNat)
  else
    let a := resolveBound n (-1) (n - 1) (n - 1) s.start
    let b := resolveBound n (-1) (n - 1) (-1) s.stop
    .ok ((List.range ((a - b + (-step) - 1) / (-step)).toNat).map fun (k : Nat) =>
      (a + k * step).toNat)

/-- The elements of `l` at the given positions. -/
def gather {α : Type _} (l : List α) (idx : List Nat) : List α := idx.filterMap fun i => l[i]?

/-- `l[start:stop:step]` -/
def pySlice {α : Type _} (l : List α) (s : PySlice) : Py (List α) := do
  let idx ← s.positions l.length
  pure (gather l idx)

theorem ediv_bound {x d : Int} {k : Nat} (hd : 0 < d) (hk : k < ((x + d - 1) / d).toNat) :
    (k : Int) * d < x := by
  have h1 : (k : Int) + 1 ≤ (x + d - 1) / d := by omega
  have h2 := (Int.le_ediv_iff_mul_le hd).mp h1
  rw [Int.add_mul, Int.one_mul] at h2
  omega

theorem resolveBound_bounds (n : Nat) (lower upper dflt : Int) (v : Option Int) (h1 : lower ≤ 0)
    (h2 : (n : Int) - 1 ≤ upper) (h3 : lower ≤ upper) (h4 : lower ≤ dflt) (h5 : dflt ≤ upper) :
    lower ≤ resolveBound n lower upper dflt v ∧ resolveBound n lower upper dflt v ≤ upper := by
  cases v with
  | none => exact ⟨h4, h5⟩
  | some v => simp only [resolveBound]; split <;> omega

/-- All positions selected by a slice are inside the sequence. -/
theorem positions_lt (s : PySlice) (n : Nat) (idx : List Nat) (h : s.positions n = .ok idx) :
    ∀ i ∈ idx, i < n := by
  unfold PySlice.positions at h
  simp only at h
  split at h
  · cases h
  · split at h
    · rename_i hs
      simp only [Except.ok.injEq] at h
      subst h
      intro i hi
      simp only [List.mem_map, List.mem_range] at hi
      obtain ⟨k, hk, rfl⟩ := hi
      have := ediv_bound hs hk
      have hb := resolveBound_bounds n 0 n n s.stop (by omega) (by omega) (by omega) (by omega)
        (by omega)
      have ha := resolveBound_bounds n 0 n 0 s.start (by omega) (by omega) (by omega) (by omega)
        (by omega)
      have : 0 ≤ (k : Int) * s.step.getD 1 := Int.mul_nonneg (by omega) (by omega)
      omega
    · rename_i h0 hs
      simp only [Except.ok.injEq] at h
      subst h
      intro i hi
      simp only [List.mem_map, List.mem_range] at hi
      obtain ⟨k, hk, rfl⟩ := hi
      have hd : 0 < -(s.step.getD 1) := by omega
      have hlt := ediv_bound hd hk
      have hb := resolveBound_bounds n (-1) (n - 1) (-1) s.stop (by omega) (by omega) (by omega)
        (by omega) (by omega)
      have ha := resolveBound_bounds n (-1) (n - 1) (n - 1) s.start (by omega) (by omega) (by omega)
        (by omega) (by omega)
      have h3 : 0 ≤ (k : Int) * -(s.step.getD 1) := Int.mul_nonneg (by omega) (by omega)
      rw [Int.mul_neg] at hlt h3
      omega

theorem gather_length {α : Type _} (l : List α) (idx : List Nat) (h : ∀ i ∈ idx, i < l.length) :
    (gather l idx).length = idx.length := by
  unfold gather
  induction idx with
  | nil => rfl
  | cons i idx ih =>
    rw [List.filterMap_cons, List.getElem?_eq_getElem (h i (by simp))]
    simp only [List.length_cons]
    rw [ih (fun j hj => h j (by simp [hj]))]

theorem getElem?_gather {α : Type _} (l : List α) (idx : List Nat) (h : ∀ i ∈ idx, i < l.length)
    (k : Nat) : (gather l idx)[k]? = idx[k]?.bind (fun i => l[i]?) := by
  unfold gather
  induction idx generalizing k with
  | nil => simp
  | cons i idx ih =>
    rw [List.filterMap_cons, List.getElem?_eq_getElem (h i (by simp))]
    cases k with
    | zero => simp [List.getElem?_eq_getElem (h i (by simp))]
    | succ k =>
      simp only [List.getElem?_cons_succ]
      exact ih (fun j hj => h j (by simp [hj])) k

theorem gather_range' {α : Type _} (l : List α) (a n : Nat) (h : a + n ≤ l.length) :
    gather l (List.range' a n) = (l.drop a).take n := by
  unfold gather
  induction n generalizing a with
  | zero => simp
  | succ n ih =>
    rw [List.range'_succ, List.filterMap_cons, List.getElem?_eq_getElem (by omega)]
    simp only
    rw [ih (a + 1) (by omega), List.drop_eq_getElem_cons (i := a) (by omega), List.take_succ_cons]

/-- Positions of a slice with non-negative bounds inside the sequence and no step. -/
theorem positions_nat (n a b : Nat) (h : a ≤ b) (hb : b ≤ n) :
    (PySlice.mk (some a) (some b) none).positions n = .ok (List.range' a (b - a)) := by
  unfold PySlice.positions
  have e1 : resolveBound n 0 n 0 (some (a : Int)) = a := by
    simp only [resolveBound]; rw [if_neg (by omega)]; omega
  have e2 : resolveBound n 0 n n (some (b : Int)) = b := by
    simp only [resolveBound]; rw [if_neg (by omega)]; omega
  simp only [Option.getD_none, e1, e2]
  rw [if_neg (by omega), if_pos (by omega)]
  congr 1
  rw [show (((b : Int) - a + 1 - 1) / 1).toNat = b - a by omega, List.range'_eq_map_range]
  apply List.map_congr_left
  intro k _
  omega

/-- Positions of a slice without step: the clamped interval. -/
theorem positions_unit (n : Nat) (start stop : Option Int) (step : Option Int)
    (hs : step = none ∨ step = some 1) :
    ∃ a b : Nat, a ≤ n ∧ b ≤ n ∧ resolveBound n 0 n 0 start = a ∧ resolveBound n 0 n n stop = b ∧
      (PySlice.mk start stop step).positions n = .ok (List.range' a (b - a)) := by
  have ha := resolveBound_bounds n 0 n 0 start (by omega) (by omega) (by omega) (by omega) (by omega)
  have hb := resolveBound_bounds n 0 n n stop (by omega) (by omega) (by omega) (by omega) (by omega)
  refine ⟨(resolveBound n 0 n 0 start).toNat, (resolveBound n 0 n n stop).toNat, by omega, by omega,
    by omega, by omega, ?_⟩
  unfold PySlice.positions
  have : step.getD 1 = 1 := by rcases hs with rfl | rfl <;> rfl
  simp only [this]
  rw [if_neg (by omega), if_pos (by omega)]
  congr 1
  generalize resolveBound n 0 n 0 start = x at *
  generalize resolveBound n 0 n n stop = y at *
  rw [show ((y - x + 1 - 1) / 1).toNat = y.toNat - x.toNat by omega, List.range'_eq_map_range]
  apply List.map_congr_left
  intro k _
  omega

end Verif
