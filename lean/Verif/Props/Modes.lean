import Verif.Lemmas.Modes

/-!
# C07: mode indexing
-/

namespace Verif.Props.Modes
open Verif.Modes

/-- C07.  `LM` lists exactly the pairs with `ell_min ≤ ell ≤ ell_max`, `|m| ≤ ell`. -/
theorem mem_LM (ellMin ellMax ell m : Int) :
    (ell, m) ∈ LMRange ellMin ellMax ↔ ellMin ≤ ell ∧ ell ≤ ellMax ∧ |m| ≤ ell := by
  rw [mem_LMRange, abs_le]; tauto

/-- C07.  Each pair is listed once. -/
theorem LM_nodup (ellMin ellMax : Int) (h : 0 ≤ ellMin) : (LMRange ellMin ellMax).Nodup := by
  by_cases hlt : ellMax < ellMin
  · rw [LMRange_empty hlt]; exact List.nodup_nil
  · have hk := map_index_LMRange ellMin h (ellMax + 1 - ellMin).toNat
    rw [show ellMin + ((ellMax + 1 - ellMin).toNat : Int) - 1 = ellMax by omega] at hk
    have : ((LMRange ellMin ellMax).map (fun p => lmIndex p.1 p.2 ellMin)).Nodup := by
      rw [hk]; exact pyRange_nodup _ _
    exact List.Nodup.of_map _ this

/-- C07.  The number of modes; `ell_max = ell_min - 1` is the empty waveform. -/
theorem LM_length (ellMin ellMax : Int) (h : 0 ≤ ellMin) (h' : ellMin - 1 ≤ ellMax) :
    ((LMRange ellMin ellMax).length : Int) = (ellMax + 1) ^ 2 - ellMin ^ 2 := by
  have hk := map_index_LMRange ellMin h (ellMax + 1 - ellMin).toNat
  rw [show ellMin + ((ellMax + 1 - ellMin).toNat : Int) - 1 = ellMax by omega,
    show ellMin + ((ellMax + 1 - ellMin).toNat : Int) = ellMax + 1 by omega] at hk
  have hlen := congrArg List.length hk
  rw [List.length_map, length_pyRange] at hlen
  rw [hlen]
  have : ellMin ^ 2 ≤ (ellMax + 1) ^ 2 := by nlinarith
  omega

/-- C07.  `index(ell, m)` is the position of `(ell, m)` in `LM`: it is a valid column number and
`LM[index(ell, m)]` is `(ell, m)`. -/
theorem LM_index (ellMin ellMax ell m : Int) (h : 0 ≤ ellMin)
    (hmem : (ell, m) ∈ LMRange ellMin ellMax) :
    0 ≤ lmIndex ell m ellMin ∧
      lmIndex ell m ellMin < ((LMRange ellMin ellMax).length : Int) ∧
      (LMRange ellMin ellMax)[(lmIndex ell m ellMin).toNat]? = some (ell, m) := by
  have hr := mem_LMRange.mp hmem
  have hk := map_index_LMRange ellMin h (ellMax + 1 - ellMin).toNat
  rw [show ellMin + ((ellMax + 1 - ellMin).toNat : Int) - 1 = ellMax by omega,
    show ellMin + ((ellMax + 1 - ellMin).toNat : Int) = ellMax + 1 by omega] at hk
  obtain ⟨k, hkl, hke⟩ := List.mem_iff_getElem.mp hmem
  have hkk : ((LMRange ellMin ellMax).map (fun p => lmIndex p.1 p.2 ellMin))[k]? =
      some (lmIndex ell m ellMin) := by
    rw [List.getElem?_map, List.getElem?_eq_getElem hkl, hke]; rfl
  rw [hk, getElem?_pyRange] at hkk
  split at hkk
  · simp only [Option.some.injEq] at hkk
    refine ⟨by omega, by omega, ?_⟩
    rw [← hkk, show ((0 : Int) + (k : Int)).toNat = k by omega, List.getElem?_eq_getElem hkl, hke]
  · cases hkk

/-- C07.  Conversely, the mode stored in column `i` has index `i`. -/
theorem index_LM (ellMin ellMax : Int) (h : 0 ≤ ellMin) (i : Nat) (ell m : Int)
    (hi : (LMRange ellMin ellMax)[i]? = some (ell, m)) : lmIndex ell m ellMin = i := by
  have hmem : (ell, m) ∈ LMRange ellMin ellMax := List.mem_of_getElem? hi
  obtain ⟨h1, h2, h3⟩ := LM_index ellMin ellMax ell m h hmem
  have := (LM_nodup ellMin ellMax h)
  obtain ⟨hl, he⟩ := List.getElem?_eq_some_iff.mp hi
  obtain ⟨hl', he'⟩ := List.getElem?_eq_some_iff.mp h3
  have := (List.Nodup.getElem_inj_iff this (hi := hl) (hj := hl')).mp (he.trans he'.symm)
  omega

/-- C07.  `indices` agrees with `index` on every row of an N×2 integer array and refuses any
other input. -/
theorem indices_eq_index (ellMin : Int) (pairs : List (Int × Int)) :
    indices true 2 (pairs.map fun p => [p.1, p.2]) ellMin =
      .ok (pairs.map fun p => lmIndex p.1 p.2 ellMin) := by
  unfold indices
  rw [if_pos ⟨rfl, rfl⟩, List.mapM_map]
  induction pairs with
  | nil => rfl
  | cons p ps ih =>
    rw [List.mapM_cons, ih]; rfl

theorem indices_rejects (isInt : Bool) (cols : Nat) (ellM : List (List Int)) (ellMin : Int)
    (h : isInt = false ∨ cols ≠ 2) : indices isInt cols ellM ellMin = .error .valueError := by
  unfold indices
  rw [if_neg]
  rintro ⟨h1, h2⟩
  rcases h with h | h
  · rw [h] at h1; cases h1
  · exact h h2

/-- C07, limit of the claim.  `index` does no range check: the impossible mode `(2, 3)` is given
the column of `(3, -3)`. -/
theorem index_unchecked : lmIndex 2 3 2 = lmIndex 3 (-3) 2 ∧ (2, 3) ∉ LMRange 2 8 := by
  refine ⟨by decide, ?_⟩
  rw [mem_LM]; decide

-- The standard range `2 ≤ ell ≤ 8`: 77 modes, `(2,-2)` first, `(8,8)` last.
example : (LMRange 2 8).length = 77 ∧ lmIndex 2 (-2) 2 = 0 ∧ lmIndex 8 8 2 = 76 ∧
    (LMRange 2 8)[4]? = some (2, 2) := by decide
example : (3, -1) ∈ LMRange 2 8 := by rw [mem_LM]; decide
example : (LMRange 0 (-1)) = [] := by decide

end Verif.Props.Modes
