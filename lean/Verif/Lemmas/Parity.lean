import Verif.Spec.Parity
import Verif.Lemmas.Modes
import Mathlib.Algebra.Group.Int.Even
import Mathlib.Data.List.Basic

namespace Verif.Parity
open Verif.Modes Verif.Spec.Parity ComplexConjugate

theorem pyRange_reverse (ell : Int) (h : 0 ≤ ell) :
    (pyRange (-ell) (ell + 1)).reverse = (pyRange (-ell) (ell + 1)).map (fun m => -m) := by
  apply List.ext_getElem?
  intro k
  rw [List.getElem?_map, getElem?_pyRange]
  by_cases hk : (k : Int) < ell + 1 - -ell
  · rw [if_pos hk, List.getElem?_reverse (by rw [length_pyRange]; omega), length_pyRange,
      getElem?_pyRange, if_pos (by omega)]
    simp only [Option.map_some, Option.some.injEq]
    omega
  · rw [if_neg hk, List.getElem?_eq_none (by rw [List.length_reverse, length_pyRange]; omega)]
    rfl

theorem lmIndices_reverse (ell a : Int) (h : 0 ≤ ell) (P : Int → Bool) (hP : ∀ m, P (-m) = P m) :
    (lmIndices ell a P).reverse =
      ((pyRange (-ell) (ell + 1)).filter P).map fun m => lmIndex ell (-m) a := by
  unfold lmIndices
  rw [← List.map_reverse, ← List.filter_reverse, pyRange_reverse ell h, List.filter_map,
    List.map_map]
  congr 1
  apply List.filter_congr
  intro m _
  simp [hP]

theorem lmIndices_nodup (ell : Int) (P : Int → Bool) :
    ((pyRange (-ell) (ell + 1)).filter P).Nodup := (pyRange_nodup _ _).filter _

/-- One fancy-index assignment: the selected modes of `ell` get `g m`, everything else is kept. -/
theorem assign_lm (out : Row ℂ) (ell a : Int) (P : Int → Bool) (g : Int → ℂ) (ell' m : Int)
    (hm : -ell' ≤ m ∧ m ≤ ell') :
    out.assign (lmIndices ell a P) (((pyRange (-ell) (ell + 1)).filter P).map g)
      (lmIndex ell' m a) = if ell' = ell ∧ P m = true then g m else out (lmIndex ell' m a) := by
  by_cases h : ell' = ell ∧ P m = true
  · rw [if_pos h]
    obtain ⟨rfl, hP⟩ := h
    unfold lmIndices
    apply Row.assign_map out _ (fun m => lmIndex ell' m a) g
    · intro x hx y hy hxy
      unfold lmIndex at hxy; omega
    · exact lmIndices_nodup _ _
    · simp only [List.mem_filter, mem_pyRange]; exact ⟨by omega, hP⟩
  · rw [if_neg h]
    apply Row.assign_not_mem
    unfold lmIndices
    simp only [List.mem_map, List.mem_filter, mem_pyRange, not_exists, not_and]
    rintro m' ⟨hm', hP'⟩ he
    have := lmIndex_inj (a := a) (by omega) hm he
    apply h
    obtain ⟨h1, h2⟩ := this
    exact ⟨h1.symm, by rw [← h2]; exact hP'⟩

/-- A loop over ells in which step `ell` writes `g ell m` to the modes of `ell` only. -/
theorem foldl_ells (step : Row ℂ → Int → Row ℂ) (g : Int → Int → ℂ) (a : Int) (L : List Int)
    (hn : L.Nodup)
    (hstep : ∀ ell ∈ L, ∀ out ell' m, -ell' ≤ m ∧ m ≤ ell' →
      step out ell (lmIndex ell' m a) = if ell' = ell then g ell m else out (lmIndex ell' m a))
    (garbage : Row ℂ) (ell m : Int) (hell : ell ∈ L) (hm : -ell ≤ m ∧ m ≤ ell) :
    L.foldl step garbage (lmIndex ell m a) = g ell m := by
  have keep : ∀ (L : List Int) (out : Row ℂ), (∀ e ∈ L, ∀ out ell' m, -ell' ≤ m ∧ m ≤ ell' →
      step out e (lmIndex ell' m a) = if ell' = e then g e m else out (lmIndex ell' m a)) →
      ell ∉ L → L.foldl step out (lmIndex ell m a) = out (lmIndex ell m a) := by
    intro L
    induction L with
    | nil => intros; rfl
    | cons e L ih =>
      intro out hs hnot
      simp only [List.foldl_cons]
      rw [ih _ (fun e' he' => hs e' (by simp [he'])) (fun h => hnot (by simp [h])),
        hs e (by simp) _ _ _ hm, if_neg]
      rintro rfl; exact hnot (by simp)
  induction L generalizing garbage with
  | nil => simp at hell
  | cons e L ih =>
    obtain ⟨h1, h2⟩ := List.nodup_cons.mp hn
    simp only [List.foldl_cons]
    rcases List.mem_cons.mp hell with rfl | hell
    · rw [keep L _ (fun e' he' => hstep e' (by simp [he'])) h1, hstep ell (by simp) _ _ _ hm,
        if_pos rfl]
    · exact ih h2 (fun e' he' => hstep e' (by simp [he'])) _ hell

theorem sgn_emod (n : Int) : sgn n = if n % 2 = 0 then 1 else -1 := by
  unfold sgn
  simp only [Int.even_iff]

theorem sgn_mul_self (n : Int) : sgn n * sgn n = 1 := by
  rw [sgn_emod]; split <;> norm_num

theorem conj_sgn (n : Int) : conj (sgn n) = sgn n := by
  rw [sgn_emod]; split <;> simp

theorem sgn_add (m n : Int) : sgn (m + n) = sgn m * sgn n := by
  rw [sgn_emod, sgn_emod, sgn_emod]
  rcases Int.emod_two_eq_zero_or_one m with h | h <;>
    rcases Int.emod_two_eq_zero_or_one n with h' | h' <;>
    simp [Int.add_emod, h, h']

theorem sgn_neg (n : Int) : sgn (-n) = sgn n := by
  rw [sgn_emod, sgn_emod]
  have : (-n) % 2 = 0 ↔ n % 2 = 0 := by omega
  simp only [this]

theorem conjRow_spec (ax : Axis) (garbage : Row ℂ) (W : Wave) (h0 : 0 ≤ W.ellMin) (ell m : Int)
    (h : HasMode W ell m) :
    conjRow ax garbage W (lmIndex ell m W.ellMin) = reflected ax W ell m := by
  obtain ⟨hl1, hl2, hm⟩ := h
  rw [abs_le] at hm
  have hmem : ell ∈ pyRange W.ellMin (W.ellMax + 1) := mem_pyRange.mpr (by omega)
  cases ax with
  | y => rfl
  | x =>
    show xRow _ _ _ _ _ = _
    unfold xRow
    rw [foldl_ells _ (fun ell m => reflected .x W ell m) W.ellMin _ (pyRange_nodup _ _) ?_ garbage
      ell m hmem hm]
    intro e he out e' m' hm'
    simp only [lmIndices, List.map_map]
    have := assign_lm out e W.ellMin (fun m => m % 2 == 0)
      ((fun i => conj (W.row i)) ∘ fun m => lmIndex e m W.ellMin)
    have h2 := fun o => assign_lm o e W.ellMin (fun m => m % 2 != 0)
      ((fun i => -conj (W.row i)) ∘ fun m => lmIndex e m W.ellMin)
    unfold lmIndices at this h2
    rw [h2 _ _ _ hm', this _ _ hm']
    by_cases c : e' = e
    · subst c
      rcases Int.emod_two_eq_zero_or_one m' with p | p <;>
        simp [p, reflected, sgn_emod, mode]
    · simp [c]
  | z =>
    show zRow _ _ _ _ _ _ = _
    unfold zRow
    rw [foldl_ells _ (fun ell m => reflected .z W ell m) W.ellMin _ (pyRange_nodup _ _) ?_ garbage
      ell m hmem hm]
    intro e he out e' m' hm'
    rw [mem_pyRange] at he
    have h2 := fun g => assign_lm out e W.ellMin (fun _ => true) g e' m' hm'
    simp only [lmIndices_reverse e W.ellMin (by omega) (fun _ => true) (fun _ => rfl),
      List.map_map]
    rcases Int.emod_two_eq_zero_or_one (e + W.spin) with p | p
    · simp only [p, BEq.rfl, ↓reduceIte]
      rw [h2]
      by_cases c : e' = e <;> simp [c, reflected, sgn_emod, mode, p]
    · have h10 : ((1 : Int) == 0) = false := rfl
      simp only [p, h10, Bool.false_eq_true, ↓reduceIte]
      rw [h2]
      by_cases c : e' = e <;> simp [c, reflected, sgn_emod, mode, p]
  | all =>
    show allRow _ _ _ _ _ _ = _
    unfold allRow
    rw [foldl_ells _ (fun ell m => reflected .all W ell m) W.ellMin _ (pyRange_nodup _ _) ?_ garbage
      ell m hmem hm]
    intro e he out e' m' hm'
    rw [mem_pyRange] at he
    have hP1 : ∀ m : Int, ((e + W.spin + -m) % 2 == 0) = ((e + W.spin + m) % 2 == 0) := by
      intro m
      have : (e + W.spin + -m) % 2 = (e + W.spin + m) % 2 := by omega
      rw [this]
    have hP2 : ∀ m : Int, ((e + W.spin + -m) % 2 != 0) = ((e + W.spin + m) % 2 != 0) := by
      intro m
      have : (e + W.spin + -m) % 2 = (e + W.spin + m) % 2 := by omega
      rw [this]
    simp only [lmIndices_reverse e W.ellMin (by omega) (fun m => (e + W.spin + m) % 2 == 0) hP1,
      lmIndices_reverse e W.ellMin (by omega) (fun m => (e + W.spin + m) % 2 != 0) hP2,
      List.map_map]
    rw [assign_lm _ e W.ellMin _ _ e' m' hm', assign_lm _ e W.ellMin _ _ e' m' hm']
    by_cases c : e' = e
    · subst c
      rcases Int.emod_two_eq_zero_or_one (e' + W.spin + m') with p | p <;>
        simp [p, reflected, sgn_emod, mode]
    · simp [c]

end Verif.Parity
