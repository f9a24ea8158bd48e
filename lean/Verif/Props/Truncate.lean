import Verif.Model.Truncate

/-!
# Properties of `truncate` (C47)
-/

namespace Verif.Props.Truncate

open Verif.Truncate

/-- Rounding: to an integer that is nearest. -/
theorem round_near (y : ℝ) : |(roundEven y : ℝ) - y| ≤ 1 / 2 := by
  have h1 := Int.floor_le y
  have h2 := Int.lt_floor_add_one y
  unfold roundEven
  split_ifs with a b c
  · rw [abs_le]; constructor <;> linarith
  · push_cast
    rw [abs_le]; constructor <;> linarith
  · rw [abs_le]; constructor <;> linarith
  · push_cast
    rw [abs_le]; constructor <;> linarith

theorem round_int (n : ℤ) : roundEven n = n := by
  unfold roundEven
  rw [Int.floor_intCast, sub_self, if_pos (by norm_num)]

theorem round_small (y : ℝ) (h : |y| < 1 / 2) : roundEven y = 0 := by
  have h1 := round_near y
  have h2 : |(roundEven y : ℝ)| < 1 := by
    calc |(roundEven y : ℝ)| = |((roundEven y : ℝ) - y) + y| := by ring_nf
      _ ≤ |(roundEven y : ℝ) - y| + |y| := abs_add_le _ _
      _ < 1 := by linarith
  have h3 : |roundEven y| < 1 := by exact_mod_cast h2
  exact Int.abs_lt_one_iff.mp h3

/-- The spacing of the numbers that remain is between the tolerance and twice that. -/
theorem power_bounds (a : ℝ) (ha : 0 < a) : ∃ (k : ℤ) (p : ℝ), power a = some p ∧ p = 2 ^ k ∧ a ≤ 1 / p ∧ 1 / p < 2 * a := by
  refine ⟨⌊-Real.logb 2 a⌋, _, if_neg (not_le.mpr ha), rfl, ?_, ?_⟩
  · have h := Int.floor_le (-Real.logb 2 a)
    have h' : ((2 : ℝ) ^ ⌊-Real.logb 2 a⌋) ≤ a⁻¹ := by
      rw [← Real.rpow_intCast]
      calc (2 : ℝ) ^ ((⌊-Real.logb 2 a⌋ : ℤ) : ℝ) ≤ 2 ^ (-Real.logb 2 a) := Real.rpow_le_rpow_of_exponent_le (by norm_num) h
        _ = a⁻¹ := by rw [Real.rpow_neg (by norm_num), Real.rpow_logb (by norm_num) (by norm_num) ha]
    rw [one_div]
    have := inv_anti₀ (by positivity : (0 : ℝ) < 2 ^ ⌊-Real.logb 2 a⌋) h'
    rwa [inv_inv] at this
  · have h := Int.lt_floor_add_one (-Real.logb 2 a)
    have h' : a⁻¹ < 2 * (2 : ℝ) ^ ⌊-Real.logb 2 a⌋ := by
      have e : 2 * (2 : ℝ) ^ ⌊-Real.logb 2 a⌋ = 2 ^ (((⌊-Real.logb 2 a⌋ : ℤ) : ℝ) + 1) := by
        rw [Real.rpow_add (by norm_num), Real.rpow_intCast, Real.rpow_one]
        ring
      rw [e]
      calc a⁻¹ = (2 : ℝ) ^ (-Real.logb 2 a) := by rw [Real.rpow_neg (by norm_num), Real.rpow_logb (by norm_num) (by norm_num) ha]
        _ < _ := Real.rpow_lt_rpow_of_exponent_lt (by norm_num) h
    have hp : (0 : ℝ) < 2 ^ ⌊-Real.logb 2 a⌋ := by positivity
    rw [inv_lt_iff_one_lt_mul₀ ha] at h'
    rw [div_lt_iff₀ hp]
    linarith

theorem part_error (p y : ℝ) (hp : 0 < p) : |(roundEven (y * p) : ℝ) / p - y| ≤ 1 / p / 2 := by
  have e : (roundEven (y * p) : ℝ) / p - y = ((roundEven (y * p) : ℝ) - y * p) / p := by field_simp
  rw [e, abs_div, abs_of_pos hp, div_le_iff₀ hp]
  have := round_near (y * p)
  have e2 : 1 / p / 2 * p = 1 / 2 := by field_simp
  rw [e2]
  exact this

theorem scale_re (p : ℝ) (z : ℂ) : (roundC (z * p) / p).re = (roundEven (z.re * p) : ℝ) / p ∧ (roundC (z * p) / p).im = (roundEven (z.im * p) : ℝ) / p := by
  unfold roundC
  constructor
  · rw [Complex.div_ofReal_re]
    simp
  · rw [Complex.div_ofReal_im]
    simp

theorem sum_sq_nonneg (row : List ℂ) : 0 ≤ (row.map fun z => z.re ^ 2 + z.im ^ 2).sum :=
  List.sum_nonneg fun x hx => by
    obtain ⟨z, -, rfl⟩ := List.mem_map.mp hx
    positivity

/-- A row that is not 0 has a positive norm. -/
theorem norm_pos (row : List ℂ) (z : ℂ) (hz : z ∈ row) (h0 : z ≠ 0) : 0 < rowNorm row := by
  unfold rowNorm
  apply Real.sqrt_pos.mpr
  have h1 : z.re ^ 2 + z.im ^ 2 ≤ (row.map fun z => z.re ^ 2 + z.im ^ 2).sum :=
    List.single_le_sum (fun x hx => by
      obtain ⟨z, -, rfl⟩ := List.mem_map.mp hx
      positivity) _ (List.mem_map.mpr ⟨z, hz, rfl⟩)
  have h2 : 0 < z.re ^ 2 + z.im ^ 2 := by
    rcases lt_or_eq_of_le (by positivity : 0 ≤ z.re ^ 2 + z.im ^ 2) with h | h
    · exact h
    · exfalso
      apply h0
      apply Complex.ext
      · exact pow_eq_zero_iff (two_ne_zero) |>.mp (by nlinarith [sq_nonneg z.re, sq_nonneg z.im])
      · exact pow_eq_zero_iff (two_ne_zero) |>.mp (by nlinarith [sq_nonneg z.re, sq_nonneg z.im])
  linarith

/-- C47 for one time, except the times where all data are 0 (see `zero_row_nan`): at a time where not all data are 0, `truncate` leaves numbers that are multiples of a power of 2 between the tolerance per mode and twice that; no part changes by more than the
tolerance per mode, and parts that are less than half of it become 0. -/
theorem truncate_row_partial (tol : ℝ) (ht : 0 < tol) (row : List ℂ) (z0 : ℂ) (h1 : z0 ∈ row) (h2 : z0 ≠ 0) :
    ∃ (out : List ℂ) (k : ℤ), truncateRow tol row = some out ∧ out.length = row.length ∧ tol * rowNorm row / √row.length ≤ 2 ^ k ∧ (2 : ℝ) ^ k < 2 * (tol * rowNorm row / √row.length) ∧
      ∀ (i : Nat) (z : ℂ), row[i]? = some z → ∃ w : ℂ, out[i]? = some w ∧ |w.re - z.re| < tol * rowNorm row / √row.length ∧ |w.im - z.im| < tol * rowNorm row / √row.length ∧
        (∃ a b : ℤ, w.re = a * 2 ^ k ∧ w.im = b * 2 ^ k) ∧ (|z.re| < tol * rowNorm row / √row.length / 2 → w.re = 0) ∧ (|z.im| < tol * rowNorm row / √row.length / 2 → w.im = 0) := by
  have hn := norm_pos row z0 h1 h2
  have hl : (0 : ℝ) < √row.length := Real.sqrt_pos.mpr (by exact_mod_cast List.length_pos_of_mem h1)
  have ea : absTol tol row = tol * rowNorm row / √row.length := by
    unfold absTol
    ring
  set a := tol * rowNorm row / √row.length with ha
  have ha0 : 0 < a := by positivity
  obtain ⟨k, p, e1, e2, e3, e4⟩ := power_bounds a ha0
  have hp : 0 < p := by rw [e2]; positivity
  have ep : (2 : ℝ) ^ (-k) = 1 / p := by rw [e2, zpow_neg, one_div]
  refine ⟨scaleRound p row, -k, ?_, by simp [scaleRound], by rw [ep]; exact e3, by rw [ep]; exact e4, fun i z hz => ?_⟩
  · unfold truncateRow
    rw [if_pos ht.ne', ea, e1]
    rfl
  · refine ⟨roundC (z * p) / p, by unfold scaleRound; rw [List.getElem?_map, hz]; rfl, ?_⟩
    rw [(scale_re p z).1, (scale_re p z).2, ep]
    have small : ∀ y : ℝ, |y| < a / 2 → (roundEven (y * p) : ℝ) / p = 0 := by
      intro y hy
      rw [round_small, Int.cast_zero, zero_div]
      rw [abs_mul, abs_of_pos hp]
      have : a * p ≤ 1 := by rwa [le_div_iff₀ hp] at e3
      nlinarith
    refine ⟨?_, ?_, ⟨roundEven (z.re * p), roundEven (z.im * p), by ring, by ring⟩, small _, small _⟩
    · exact lt_of_le_of_lt (part_error p z.re hp) (by linarith)
    · exact lt_of_le_of_lt (part_error p z.im hp) (by linarith)

theorem sum_le (l m : List ℂ) (hl : m.length = l.length) (c : ℝ) (h : ∀ (i : Nat) (z w : ℂ), l[i]? = some z → m[i]? = some w → (w - z).re ^ 2 + (w - z).im ^ 2 ≤ c) :
    ((List.zipWith (fun w z => w - z) m l).map fun z => z.re ^ 2 + z.im ^ 2).sum ≤ l.length * c := by
  induction l generalizing m with
  | nil =>
    rw [List.length_nil, List.length_eq_zero_iff] at hl
    subst hl
    simp
  | cons z l ih =>
    cases m with
    | nil => simp at hl
    | cons w m =>
      have h1 := ih m (by simpa using hl) (fun i z w hz hw => h (i + 1) z w (by simpa using hz) (by simpa using hw))
      have h2 := h 0 z w rfl rfl
      simp only [List.zipWith_cons_cons, List.map_cons, List.sum_cons, List.length_cons]
      push_cast
      nlinarith

/-- C47, except the times where all data are 0: the norm of the change is at most `√2 tol` times the norm of the data. -/
theorem truncate_norm_partial (tol : ℝ) (ht : 0 < tol) (row : List ℂ) (z0 : ℂ) (h1 : z0 ∈ row) (h2 : z0 ≠ 0) :
    ∃ out, truncateRow tol row = some out ∧ rowNorm (List.zipWith (fun w z => w - z) out row) ≤ √2 * (tol * rowNorm row) := by
  obtain ⟨out, k, e1, e2, -, -, e3⟩ := truncate_row_partial tol ht row z0 h1 h2
  refine ⟨out, e1, ?_⟩
  have hn := norm_pos row z0 h1 h2
  have hlen : (0 : ℝ) < row.length := by exact_mod_cast List.length_pos_of_mem h1
  have hl : (0 : ℝ) < √row.length := Real.sqrt_pos.mpr hlen
  set a := tol * rowNorm row / √row.length with ha
  have key := sum_le row out e2 (2 * a ^ 2) (fun i z w hz hw => by
    obtain ⟨w', f1, f2, f3, -⟩ := e3 i z hz
    rw [hw] at f1
    cases f1
    rw [Complex.sub_re, Complex.sub_im]
    have g1 := sq_le_sq' (by linarith [(abs_lt.mp f2).1]) (abs_lt.mp f2).2.le
    have g2 := sq_le_sq' (by linarith [(abs_lt.mp f3).1]) (abs_lt.mp f3).2.le
    linarith)
  unfold rowNorm at *
  calc √((List.zipWith (fun w z => w - z) out row).map fun z => z.re ^ 2 + z.im ^ 2).sum ≤ √(row.length * (2 * a ^ 2)) := Real.sqrt_le_sqrt key
    _ = √(2 * (√row.length * a) ^ 2) := by
      congr 1
      rw [mul_pow, Real.sq_sqrt hlen.le]
      ring
    _ = √2 * (√row.length * a) := by
      rw [Real.sqrt_mul (by norm_num), Real.sqrt_sq]
      positivity
    _ = _ := by
      rw [ha]
      congr 1
      field_simp

/-- C47: rounding again with the same absolute tolerance changes nothing. -/
theorem idempotent (p : ℝ) (hp : p ≠ 0) (row : List ℂ) : scaleRound p (scaleRound p row) = scaleRound p row := by
  unfold scaleRound
  rw [List.map_map]
  refine List.map_congr_left fun z _ => ?_
  have hpc : (p : ℂ) ≠ 0 := by exact_mod_cast hp
  show roundC (roundC (z * p) / p * p) / p = roundC (z * p) / p
  rw [div_mul_cancel₀ _ hpc]
  congr 1
  unfold roundC
  simp only [round_int]

/-- With `tol = 0` nothing is changed. -/
theorem tol_zero (row : List ℂ) : truncateRow 0 row = some row := if_neg (by simp)

/-- A time at which all data are 0 becomes nan. -/
theorem zero_row_nan (tol : ℝ) (ht : tol ≠ 0) (row : List ℂ) (h : ∀ z ∈ row, z = 0) : truncateRow tol row = none := by
  have hn : rowNorm row = 0 := by
    unfold rowNorm
    have : row.map (fun z : ℂ => z.re ^ 2 + z.im ^ 2) = row.map fun _ => (0 : ℝ) := List.map_congr_left fun z hz => by rw [h z hz]; simp
    rw [this]
    simp
  unfold truncateRow
  rw [if_pos ht]
  unfold absTol power
  rw [hn, zero_mul, if_pos le_rfl]
  rfl

/-- A negative tolerance makes nan of everything. -/
theorem negative_tol_nan (tol : ℝ) (ht : tol < 0) (row : List ℂ) : truncateRow tol row = none := by
  unfold truncateRow
  rw [if_pos ht.ne]
  have : absTol tol row ≤ 0 := by
    unfold absTol
    exact mul_nonpos_of_nonneg_of_nonpos (Real.sqrt_nonneg _) (div_nonpos_of_nonpos_of_nonneg ht.le (Real.sqrt_nonneg _))
  unfold power
  rw [if_pos this]
  rfl

theorem power_value (a : ℝ) (k : ℤ) (h1 : (2 : ℝ) ^ (-k) < 2 * a) (h2 : a ≤ 2 ^ (-k)) : power a = some (2 ^ k) := by
  have ha : 0 < a := by
    have : (0 : ℝ) < 2 ^ (-k) := by positivity
    linarith
  unfold power
  rw [if_neg (not_le.mpr ha)]
  congr 2
  rw [Int.floor_eq_iff]
  constructor
  · have : Real.logb 2 a ≤ ((-k : ℤ) : ℝ) := by
      rw [Real.logb_le_iff_le_rpow (by norm_num) ha, Real.rpow_intCast]
      exact h2
    push_cast at this
    linarith
  · have : ((-k - 1 : ℤ) : ℝ) < Real.logb 2 a := by
      rw [Real.lt_logb_iff_rpow_lt (by norm_num) ha, Real.rpow_intCast, zpow_sub₀ (by norm_num), zpow_one]
      linarith
    push_cast at this
    linarith

theorem norm_single (y : ℝ) (hy : 0 ≤ y) : rowNorm [(y : ℂ)] = y := by
  unfold rowNorm
  simp [Real.sqrt_sq hy]

theorem absTol_single (tol y : ℝ) (hy : 0 ≤ y) : absTol tol [(y : ℂ)] = y * tol := by
  unfold absTol
  rw [norm_single y hy]
  simp

/-- `truncate(tol)` twice is not the same as once, for arbitrarily small tolerances: the norm, and with it the absolute tolerance, changes. -/
theorem twice_differs (n : Nat) (hn : 1 ≤ n) : ∃ w : ℂ, truncateRow (1 / (2 * n + 4 / 5)) [((2 * n + 3 / 5 : ℝ) : ℂ)] = some [((2 * n + 1 : ℝ) : ℂ)] ∧
    truncateRow (1 / (2 * n + 4 / 5)) [((2 * n + 1 : ℝ) : ℂ)] = some [w] ∧ w ≠ ((2 * n + 1 : ℝ) : ℂ) := by
  have hn' : (1 : ℝ) ≤ n := by exact_mod_cast hn
  have hd : (0 : ℝ) < 2 * n + 4 / 5 := by linarith
  have ht : 1 / (2 * (n : ℝ) + 4 / 5) ≠ 0 := by positivity
  have p1 : power ((2 * n + 3 / 5) * (1 / (2 * n + 4 / 5))) = some (2 ^ (0 : ℤ)) := by
    refine power_value _ 0 ?_ ?_
    · rw [mul_one_div, ← mul_div_assoc, lt_div_iff₀ hd]
      norm_num
      linarith
    · rw [mul_one_div, div_le_iff₀ hd]
      norm_num
  have p2 : power ((2 * n + 1) * (1 / (2 * n + 4 / 5))) = some (2 ^ (-1 : ℤ)) := by
    refine power_value _ (-1) ?_ ?_
    · rw [mul_one_div, ← mul_div_assoc, lt_div_iff₀ hd]
      norm_num
    · rw [mul_one_div, div_le_iff₀ hd]
      norm_num
      linarith
  have r1 : roundEven (2 * n + 3 / 5) = 2 * n + 1 := by
    have hf : ⌊(2 * n + 3 / 5 : ℝ)⌋ = 2 * (n : ℤ) := by
      rw [Int.floor_eq_iff]
      push_cast
      constructor <;> linarith
    unfold roundEven
    rw [hf]
    push_cast
    rw [if_neg (by norm_num), if_pos (by norm_num)]
  refine ⟨roundC (((2 * n + 1 : ℝ) : ℂ) * ((2 ^ (-1 : ℤ) : ℝ) : ℂ)) / ((2 ^ (-1 : ℤ) : ℝ) : ℂ), ?_, ?_, ?_⟩
  · unfold truncateRow
    rw [if_pos ht, absTol_single _ _ (by linarith), p1]
    show some [roundC (((2 * n + 3 / 5 : ℝ) : ℂ) * (((2 : ℝ) ^ (0 : ℤ) : ℝ) : ℂ)) / (((2 : ℝ) ^ (0 : ℤ) : ℝ) : ℂ)] = _
    congr 2
    have z0 : roundEven 0 = 0 := by
      have := round_int 0
      rwa [Int.cast_zero] at this
    rw [zpow_zero, Complex.ofReal_one, mul_one, div_one]
    apply Complex.ext
    · show ((roundEven (((2 * n + 3 / 5 : ℝ) : ℂ)).re : ℤ) : ℝ) = (((2 * n + 1 : ℝ) : ℂ)).re
      rw [Complex.ofReal_re, Complex.ofReal_re, r1]
      push_cast
      ring
    · show ((roundEven (((2 * n + 3 / 5 : ℝ) : ℂ)).im : ℤ) : ℝ) = (((2 * n + 1 : ℝ) : ℂ)).im
      rw [Complex.ofReal_im, Complex.ofReal_im, z0, Int.cast_zero]
  · unfold truncateRow
    rw [if_pos ht, absTol_single _ _ (by linarith), p2]
    rfl
  · intro h
    have h1 := congrArg Complex.re h
    rw [(scale_re _ _).1, Complex.ofReal_re] at h1
    set m := roundEven ((2 * (n : ℝ) + 1) * 2 ^ (-1 : ℤ)) with hm
    have h2 : (m : ℝ) * 2 = 2 * n + 1 := by
      rw [← h1, zpow_neg, zpow_one]
      simp
    have h3 : m * 2 = 2 * (n : ℤ) + 1 := by exact_mod_cast h2
    omega

/-- The hypotheses can be met. -/
example : ∃ row : List ℂ, (∃ z ∈ row, z ≠ 0) ∧ ∃ tol : ℝ, 0 < tol ∧ rowNorm row = 5 :=
  ⟨[3, 4 * Complex.I], ⟨3, by simp, by norm_num⟩, 1 / 10 ^ 10, by norm_num, by
    unfold rowNorm
    rw [show (List.map (fun z : ℂ => z.re ^ 2 + z.im ^ 2) [3, 4 * Complex.I]).sum = 5 ^ 2 by simp; norm_num]
    exact Real.sqrt_sq (by norm_num)⟩

end Verif.Props.Truncate
