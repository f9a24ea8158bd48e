import Verif.Lemmas.ConjPairs

/-!
# C08: conjugate-pair storage is lossless
-/

namespace Verif.Props.ConjPairs
open Verif.Modes Verif.ConjPairs ComplexConjugate

/-- C08.  The content of every column after `convert_to_conjugate_pairs`: `s[l, m]` for `m > 0`,
`d[l, -m]` for `m < 0` and the unchanged mode for `m = 0`. -/
theorem convert_to_conjugate_pairs_spec (ellMin ellMax : Int) (row : Row ℂ) (ell m : Int)
    (hl : ellMin ≤ ell ∧ ell ≤ ellMax) (hm : |m| ≤ ell) :
    let f := fun m => row (lmIndex ell m ellMin)
    convertTo ellMin ellMax row (lmIndex ell m ellMin) =
      if 0 < m then (f m + conj (f (-m))) / (Real.sqrt 2 : ℂ)
      else if m < 0 then (f (-m) - conj (f m)) / (Real.sqrt 2 : ℂ)
      else f 0 := by
  intro f
  rw [abs_le] at hm
  rw [convertTo_eq]
  obtain ⟨h1, h2⟩ := fold_spec fTo ellMin _ (labels_nodup ellMin ellMax) (good_labels _ _) row
  rcases lt_trichotomy m 0 with h | h | h
  · rw [if_neg (by omega), if_pos h]
    have := (h1 (ell, -m) (mem_labels.mpr (by omega))).2
    simp only [neg_neg] at this
    rw [this]; rfl
  · subst h
    rw [if_neg (by omega), if_neg (by omega), h2]
    rintro ⟨ell', m'⟩ hp
    have hp' := mem_labels.mp hp
    constructor
    · intro he
      have := lmIndex_inj (a := ellMin) (by omega) (by simp; omega) he
      simp only at this; omega
    · intro he
      have := lmIndex_inj (a := ellMin) (by omega) (by simp; omega) he
      simp only at this; omega
  · rw [if_pos h]
    exact (h1 (ell, m) (mem_labels.mpr (by omega))).1

/-- C08.  `convert_from_conjugate_pairs` undoes `convert_to_conjugate_pairs`, on every column of
every row, for every range of ell. -/
theorem convert_from_to (ellMin ellMax : Int) (row : Row ℂ) :
    convertFrom ellMin ellMax (convertTo ellMin ellMax row) = row := by
  rw [convertTo_eq, convertFrom_eq]
  exact fold_fold _ _ fFrom_fTo _ _ _

/-- C08.  And vice versa. -/
theorem convert_to_from (ellMin ellMax : Int) (row : Row ℂ) :
    convertTo ellMin ellMax (convertFrom ellMin ellMax row) = row := by
  rw [convertTo_eq, convertFrom_eq]
  exact fold_fold _ _ fTo_fFrom _ _ _

/-- C08.  The norm at each time (the sum of the squared magnitudes of all
`(ell_max+1)^2 - ell_min^2` columns) is preserved. -/
theorem convert_to_conjugate_pairs_norm (ellMin ellMax : Int) (h0 : 0 ≤ ellMin)
    (h1 : ellMin - 1 ≤ ellMax) (row : Row ℂ) :
    ((pyRange 0 ((ellMax + 1) ^ 2 - ellMin ^ 2)).map fun i =>
        Complex.normSq (convertTo ellMin ellMax row i)).sum =
      ((pyRange 0 ((ellMax + 1) ^ 2 - ellMin ^ 2)).map fun i => Complex.normSq (row i)).sum := by
  have hk := map_index_LMRange ellMin h0 (ellMax + 1 - ellMin).toNat
  rw [show ellMin + ((ellMax + 1 - ellMin).toNat : Int) - 1 = ellMax by omega,
    show ellMin + ((ellMax + 1 - ellMin).toNat : Int) = ellMax + 1 by omega] at hk
  rw [← hk, List.map_map, List.map_map]
  unfold LMRange
  simp only [List.map_flatMap, List.map_map]
  rw [List.flatMap_def, List.flatMap_def, List.sum_flatten, List.sum_flatten,
    List.map_map, List.map_map]
  congr 1
  apply List.map_congr_left
  intro ell hell
  rw [mem_pyRange] at hell
  obtain ⟨n, rfl⟩ : ∃ n : Nat, ell = n := ⟨ell.toNat, by omega⟩
  simp only [Function.comp_def]
  rw [sum_pairs (fun m => Complex.normSq (convertTo ellMin ellMax row (lmIndex n m ellMin))) n,
    sum_pairs (fun m => Complex.normSq (row (lmIndex n m ellMin))) n]
  congr 1
  · have := convert_to_conjugate_pairs_spec ellMin ellMax row n 0 (by omega) (by simp)
    simp only at this
    rw [this]; simp
  · congr 1
    apply List.map_congr_left
    intro m hm
    rw [mem_pyRange] at hm
    have e1 := convert_to_conjugate_pairs_spec ellMin ellMax row n m (by omega)
      (by rw [abs_le]; omega)
    have e2 := convert_to_conjugate_pairs_spec ellMin ellMax row n (-m) (by omega)
      (by rw [abs_le]; omega)
    simp only at e1 e2
    rw [e1, e2, if_pos (by omega), if_neg (by omega), if_pos (by omega), neg_neg]
    exact fTo_norm _ _

-- The hypotheses cover the mode (2,-1) of a waveform with 2 ≤ ell ≤ 8.
example : ((2 : Int) ≤ 2 ∧ (2 : Int) ≤ 8) ∧ |(-1 : Int)| ≤ 2 := by decide

end Verif.Props.ConjPairs
