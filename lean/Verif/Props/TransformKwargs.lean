import Verif.Model.TransformKwargs
import Verif.Lemmas.Modes
import Verif.Spec.Charges
import Mathlib.Tactic.LinearCombination
import Mathlib.Tactic.FieldSimp
import Mathlib.Tactic.Linarith

/-!
# C35: the keyword arguments of BMS transformations
-/

namespace Verif.Props.TransformKwargs

open Verif.Modes Verif.TransformKwargs ComplexConjugate

/-- The weight `(ell, m)` of a supertranslation (stored from `ell = 0`). -/
def weight (row : Row ℂ) (ell m : Int) : ℂ := row (lmIndex ell m 0)

/-- The weights up to `ellMax` are those of a real function. -/
def IsReal (ellMax : Int) (row : Row ℂ) : Prop := ∀ ell m, 0 ≤ ell → ell ≤ ellMax → |m| ≤ ell → weight row ell (-m) = (-1) ^ m.natAbs * conj (weight row ell m)

/-! ## Imposing reality -/

theorem mem_labels {b ell m : Int} : (ell, m) ∈ labels b ↔ ell ≤ b ∧ 0 ≤ m ∧ m ≤ ell := by
  unfold labels
  simp only [List.mem_flatMap, List.mem_map, mem_pyRange, Prod.mk.injEq]
  constructor
  · rintro ⟨e, h1, m', h2, rfl, rfl⟩; omega
  · rintro ⟨h1, h2⟩; exact ⟨ell, by omega, m, by omega, rfl, rfl⟩

theorem labels_nodup (b : Int) : (labels b).Nodup := by
  unfold labels
  rw [List.nodup_flatMap]
  constructor
  · intro ell _
    exact (pyRange_nodup _ _).map (fun x y h => by simpa using h)
  · exact (pyRange_nodup _ _).imp (by
      intro x y hxy p h1 h2
      simp only [List.mem_map] at h1 h2
      obtain ⟨m, _, rfl⟩ := h1
      obtain ⟨m', _, h⟩ := h2
      simp at h
      exact hxy h.1.symm)

theorem sign_sq (k : Nat) : ((-1 : ℂ) ^ k) * (-1) ^ k = 1 := by rw [← mul_pow]; simp

theorem conj_sign (k : Nat) : conj ((-1 : ℂ) ^ k) = (-1) ^ k := by simp

/-- One step: the two weights are replaced by their real part. -/
theorem imposeStep_spec (row : Row ℂ) (ell m : Int) (h0 : 0 ≤ m) (hm : m ≤ ell) (ell' m' : Int) (hm' : |m'| ≤ ell') :
    weight (imposeStep row (ell, m)) ell' m' = if ell' = ell ∧ (m' = m ∨ m' = -m) then (weight row ell' m' + (-1) ^ m'.natAbs * conj (weight row ell' (-m'))) / 2 else weight row ell' m' := by
  rw [abs_le] at hm'
  by_cases hc : ell' = ell ∧ (m' = m ∨ m' = -m)
  · rw [if_pos hc]
    obtain ⟨rfl, h⟩ := hc
    by_cases hz : m = 0
    · have : m' = 0 := by omega
      subst this
      subst hz
      have h2 : conj (2 : ℂ) = 2 := map_ofNat _ 2
      simp [imposeStep, weight, h2]
      ring
    · have hne : lmIndex ell' m 0 ≠ lmIndex ell' (-m) 0 := by
        simp [lmIndex]; omega
      rcases h with rfl | rfl
      · simp only [weight, imposeStep, Row.set_ne _ _ hne, Row.set_self]
      · simp only [weight, imposeStep, Row.set_self, neg_neg, Int.natAbs_neg, map_div₀, map_add, map_mul, conj_sign, Complex.conj_conj, map_ofNat]
        linear_combination (row (lmIndex ell' (-m) 0) / 2) * sign_sq m.natAbs
  · rw [if_neg hc]
    have h1 : lmIndex ell' m' 0 ≠ lmIndex ell m 0 := by
      intro h
      have := lmIndex_inj (a := 0) hm' ⟨by omega, hm⟩ h
      exact hc ⟨this.1, Or.inl this.2⟩
    have h2 : lmIndex ell' m' 0 ≠ lmIndex ell (-m) 0 := by
      intro h
      have := lmIndex_inj (a := 0) hm' ⟨by omega, by omega⟩ h
      exact hc ⟨this.1, Or.inr this.2⟩
    simp only [weight, imposeStep, Row.set_ne _ _ h1, Row.set_ne _ _ h2]

theorem fold_spec (L : List (Int × Int)) (hn : L.Nodup) (hL : ∀ p ∈ L, 0 ≤ p.2 ∧ p.2 ≤ p.1) (row : Row ℂ) (ell m : Int) (hm : |m| ≤ ell) :
    weight (L.foldl imposeStep row) ell m = if (ell, |m|) ∈ L then (weight row ell m + (-1) ^ m.natAbs * conj (weight row ell (-m))) / 2 else weight row ell m := by
  induction L generalizing row with
  | nil => simp
  | cons q L ih =>
    obtain ⟨hq, hn'⟩ := List.nodup_cons.mp hn
    have hgq := hL q (by simp)
    obtain ⟨e, k⟩ := q
    have key : ∀ m' : Int, |m'| = |m| → weight (imposeStep row (e, k)) ell m' = if ell = e ∧ |m| = k then (weight row ell m' + (-1) ^ m'.natAbs * conj (weight row ell (-m'))) / 2 else weight row ell m' := by
      intro m' h'
      rw [imposeStep_spec row e k hgq.1 hgq.2 ell m' (h' ▸ hm)]
      have : (ell = e ∧ (m' = k ∨ m' = -k)) ↔ (ell = e ∧ |m| = k) := by
        rw [← h']
        have h0 : 0 ≤ k := hgq.1
        rcases abs_cases m' with ⟨h, _⟩ | ⟨h, _⟩ <;> rw [h] <;> constructor <;> rintro ⟨rfl, hh⟩ <;> refine ⟨rfl, ?_⟩ <;> omega
      simp only [this]
    rw [List.foldl_cons, ih hn' (fun p hp => hL p (by simp [hp])), key m rfl, key (-m) (abs_neg m)]
    by_cases hc : ell = e ∧ |m| = k
    · have h1 : (ell, |m|) ∉ L := by rw [hc.1, hc.2]; exact hq
      have h2 : (ell, |m|) ∈ (e, k) :: L := by rw [hc.1, hc.2]; simp
      rw [if_neg h1, if_pos h2, if_pos hc]
    · have h2 : (ell, |m|) ∈ (e, k) :: L ↔ (ell, |m|) ∈ L := by
        simp only [List.mem_cons, Prod.mk.injEq, or_iff_right_iff_imp]
        intro h
        exact absurd h hc
      simp only [if_neg hc, h2]

/-- C35: each weight becomes that of the real part. -/
theorem imposeReality_spec (ellMax : Int) (row : Row ℂ) (ell m : Int) (hl : ell ≤ ellMax) (hm : |m| ≤ ell) :
    weight (imposeReality ellMax row) ell m = (weight row ell m + (-1) ^ m.natAbs * conj (weight row ell (-m))) / 2 := by
  rw [imposeReality, fold_spec _ (labels_nodup _) _ row ell m hm, if_pos]
  · exact mem_labels.mpr ⟨hl, abs_nonneg m, hm⟩
  · rintro ⟨e, k⟩ hp
    exact (mem_labels.mp hp).2

theorem imposeReality_isReal (ellMax : Int) (row : Row ℂ) : IsReal ellMax (imposeReality ellMax row) := by
  intro ell m h0 hl hm
  rw [imposeReality_spec _ _ _ _ hl hm, imposeReality_spec _ _ _ _ hl (by rwa [abs_neg])]
  simp only [neg_neg, Int.natAbs_neg, map_div₀, map_add, map_mul, conj_sign, Complex.conj_conj, map_ofNat]
  linear_combination (-(weight row ell (-m)) / 2) * sign_sq m.natAbs

/-- C35: a real supertranslation is not changed. -/
theorem imposeReality_id (ellMax : Int) (row : Row ℂ) (h : IsReal ellMax row) (ell m : Int) (h0 : 0 ≤ ell) (hl : ell ≤ ellMax) (hm : |m| ≤ ell) :
    weight (imposeReality ellMax row) ell m = weight row ell m := by
  rw [imposeReality_spec _ _ _ _ hl hm, h ell m h0 hl hm]
  simp only [map_mul, conj_sign, Complex.conj_conj]
  linear_combination (weight row ell m / 2) * sign_sq m.natAbs

/-! ## The overrides -/

open Verif.Spec.Charges in
/-- The part with `ell <= 1` of the supertranslation is `t - (x, y, z)·r`. -/
def Low (row : Row ℂ) (t x y z : ℝ) : Prop := ∀ θ φ, eval (weight row) θ φ = ((t - (x * n θ φ 1 + y * n θ φ 2 + z * n θ φ 3) : ℝ) : ℂ)

/-- The four weights are in agreement with the translation. -/
structure Consistent (s : St) : Prop where
  w0 : s.row 0 = constantAs s.t
  w1 : s.row 1 = (vectorAs (-s.x) (-s.y) (-s.z)).1
  w2 : s.row 2 = (vectorAs (-s.x) (-s.y) (-s.z)).2.1
  w3 : s.row 3 = (vectorAs (-s.x) (-s.y) (-s.z)).2.2

theorem root_a : √(2 * Real.pi / 3) * √(3 / (8 * Real.pi)) = 1 / 2 := by
  have hp := Real.pi_pos
  rw [← Real.sqrt_mul (by positivity), show 2 * Real.pi / 3 * (3 / (8 * Real.pi)) = (1 / 2) ^ 2 by field_simp; norm_num, Real.sqrt_sq (by norm_num)]

theorem root_b : √(4 * Real.pi / 3) * √(3 / (4 * Real.pi)) = 1 := by
  have hp := Real.pi_pos
  rw [← Real.sqrt_mul (by positivity), show 4 * Real.pi / 3 * (3 / (4 * Real.pi)) = 1 by field_simp, Real.sqrt_one]

theorem Consistent.low {s : St} (h : Consistent s) : Low s.row s.t s.x s.y s.z := by
  intro θ φ
  have e0 : weight s.row 0 0 = constantAs s.t := h.w0
  have e1 : weight s.row 1 (-1) = _ := h.w1
  have e2 : weight s.row 1 0 = _ := h.w2
  have e3 : weight s.row 1 1 = _ := h.w3
  have ha := root_a
  have hb := root_b
  have hc : √(4 * Real.pi) * (1 / √(4 * Real.pi)) = 1 := mul_one_div_cancel (by positivity)
  simp only [Verif.Spec.Charges.eval, e0, e1, e2, e3, constantAs, vectorAs, Verif.Spec.Charges.Y00, Verif.Spec.Charges.Y1m, Verif.Spec.Charges.Y10, Verif.Spec.Charges.Y11, Verif.Spec.Charges.n]
  generalize √(2 * Real.pi / 3) = a at *
  generalize √(3 / (8 * Real.pi)) = b at *
  generalize √(4 * Real.pi / 3) = c at *
  generalize √(3 / (4 * Real.pi)) = d at *
  generalize √(4 * Real.pi) = e at *
  generalize Real.sin θ = sθ
  generalize Real.cos θ = cθ
  generalize Real.sin φ = sφ
  generalize Real.cos φ = cφ
  apply Complex.ext
  · simp
    simp at hc
    linear_combination s.t * hc - s.z * cθ * hb - 2 * (s.x * sθ * cφ + s.y * sθ * sφ) * ha
  · simp
    try ring

theorem Low.unique {row : Row ℂ} {t x y z t' x' y' z' : ℝ} (h : Low row t x y z) (h' : Low row t' x' y' z') : t = t' ∧ x = x' ∧ y = y' ∧ z = z' := by
  have key : ∀ θ φ, t - (x * Spec.Charges.n θ φ 1 + y * Spec.Charges.n θ φ 2 + z * Spec.Charges.n θ φ 3) = t' - (x' * Spec.Charges.n θ φ 1 + y' * Spec.Charges.n θ φ 2 + z' * Spec.Charges.n θ φ 3) := by
    intro θ φ
    have := (h θ φ).symm.trans (h' θ φ)
    exact_mod_cast this
  have a := key 0 0
  have b := key Real.pi 0
  have c := key (Real.pi / 2) 0
  have d := key (Real.pi / 2) (Real.pi / 2)
  simp [Spec.Charges.n] at a b c d
  refine ⟨?_, ?_, ?_, ?_⟩ <;> linarith

/-- A real supertranslation agrees with the translation found from it. -/
theorem initial_consistent (row : Row ℂ) (ellMax : Int) (h1 : 1 ≤ ellMax) (h : IsReal ellMax row) : Consistent (initial row) := by
  have a := h 0 0 (by omega) (by omega) (by simp)
  have b := h 1 0 (by omega) h1 (by simp)
  have c := h 1 1 (by omega) h1 (by simp)
  have a' : row 0 = conj (row 0) := by simpa [weight, lmIndex] using a
  have b' : row 2 = conj (row 2) := by simpa [weight, lmIndex] using b
  have c' : row 1 = -conj (row 3) := by simpa [weight, lmIndex] using c
  have ai : (row 0).im = 0 := Complex.conj_eq_iff_im.mp a'.symm
  have bi : (row 2).im = 0 := Complex.conj_eq_iff_im.mp b'.symm
  have cr : (row 1).re = -(row 3).re := by rw [c']; simp
  have ci : (row 1).im = (row 3).im := by rw [c']; simp
  have p1 : √(4 * Real.pi) ≠ 0 := by positivity
  have p2 : √(2 * Real.pi / 3) ≠ 0 := by positivity
  have p3 : √(4 * Real.pi / 3) ≠ 0 := by positivity
  have hx : (initial row).x = -((row 1).re / √(2 * Real.pi / 3)) := by
    have : (row 1 - row 3) / (2 * ((√(2 * Real.pi / 3) : ℝ) : ℂ)) = (((1 / (2 * √(2 * Real.pi / 3)) : ℝ)) : ℂ) * (row 1 - row 3) := by
      push_cast
      ring
    simp only [initial, vectorFrom, this, Complex.re_ofReal_mul, Complex.sub_re, cr]
    field_simp
    ring
  have hy : (initial row).y = -((row 1).im / √(2 * Real.pi / 3)) := by
    have : (row 1 + row 3) / (2 * Complex.I * ((√(2 * Real.pi / 3) : ℝ) : ℂ)) = (((1 / (2 * √(2 * Real.pi / 3)) : ℝ)) : ℂ) * ((row 1 + row 3) / Complex.I) := by
      push_cast
      ring
    simp only [initial, vectorFrom, this]
    rw [Complex.re_ofReal_mul, Complex.div_I]
    generalize √(2 * Real.pi / 3) = r at *
    simp [ci]
    field_simp
    ring
  have hz : (initial row).z = -((row 2).re / √(4 * Real.pi / 3)) := by
    simp only [initial, vectorFrom, Complex.div_ofReal_re]
  have ht : (initial row).t = (row 0).re / √(4 * Real.pi) := by
    simp only [initial, constantFrom, Complex.div_ofReal_re]
  have hr : (initial row).row = row := rfl
  constructor
  · rw [hr, constantAs, ht, div_mul_cancel₀ _ p1]
    exact Complex.ext rfl ai
  · rw [hr, hx, hy, hz]
    simp only [vectorAs]
    generalize √(2 * Real.pi / 3) = r at *
    generalize √(4 * Real.pi / 3) = q at *
    apply Complex.ext
    · simp [vectorAs, p2]
    · simp [vectorAs, p2]
  · rw [hr, hx, hy, hz]
    simp only [vectorAs]
    generalize √(2 * Real.pi / 3) = r at *
    generalize √(4 * Real.pi / 3) = q at *
    apply Complex.ext
    · simp [vectorAs, p3]
    · simp [vectorAs, bi]
  · rw [hr, hx, hy, hz]
    simp only [vectorAs]
    generalize √(2 * Real.pi / 3) = r at *
    generalize √(4 * Real.pi / 3) = q at *
    apply Complex.ext
    · simp [vectorAs, p2, cr]
    · simp [vectorAs, p2, ci]

/-- The documented order: `time_translation`, then `spacetime_translation[0]`, then the supertranslation. -/
noncomputable def timeOf (kw : Kw) (t0 : ℝ) : ℝ := (kw.time_translation.join.or (kw.spacetime_translation.bind (·[0]?))).getD t0

/-- `space_translation`, then the last components of `spacetime_translation`, then the supertranslation. -/
noncomputable def spaceOf (kw : Kw) (i : Nat) (x0 : ℝ) : ℝ := ((kw.space_translation.bind (·[i]?)).or (kw.spacetime_translation.bind (·[i + 1]?))).getD x0

theorem putSpace_row (s : St) (i : Int) (h : i ≤ 0 ∨ 4 ≤ i) : (putSpace s).row i = s.row i := by
  simp only [putSpace]
  rw [Row.set_ne _ _ (by omega), Row.set_ne _ _ (by omega), Row.set_ne _ _ (by omega)]

theorem putTime_row (s : St) (i : Int) (h : i ≠ 0) : (putTime s).row i = s.row i := by
  simp only [putTime]
  rw [Row.set_ne _ _ h]

theorem putSpace_consistent (s : St) (h : s.row 0 = constantAs s.t) : Consistent (putSpace s) := by
  constructor
  · rw [putSpace_row s 0 (by omega), h]; rfl
  · simp [putSpace, Row.set]
  · simp [putSpace, Row.set]
  · simp [putSpace, Row.set]

theorem putTime_consistent (s : St) (h1 : s.row 1 = (vectorAs (-s.x) (-s.y) (-s.z)).1) (h2 : s.row 2 = (vectorAs (-s.x) (-s.y) (-s.z)).2.1) (h3 : s.row 3 = (vectorAs (-s.x) (-s.y) (-s.z)).2.2) :
    Consistent (putTime s) := by
  constructor
  · simp [putTime]
  · rw [putTime_row _ _ (by decide), h1]; rfl
  · rw [putTime_row _ _ (by decide), h2]; rfl
  · rw [putTime_row _ _ (by decide), h3]; rfl

theorem stepSpacetime_spec (kw : Kw) (s s' : St) (hc : Consistent s) (h : stepSpacetime kw s = .ok s') : Consistent s' ∧ (∀ i, 4 ≤ i → s'.row i = s.row i) ∧
    s'.t = (kw.spacetime_translation.bind (·[0]?)).getD s.t ∧ s'.x = (kw.spacetime_translation.bind (·[1]?)).getD s.x ∧ s'.y = (kw.spacetime_translation.bind (·[2]?)).getD s.y ∧
    s'.z = (kw.spacetime_translation.bind (·[3]?)).getD s.z := by
  unfold stepSpacetime at h
  split at h
  · rename_i e
    cases h
    simp [e, hc]
  · rename_i t x y z e
    cases h
    refine ⟨putSpace_consistent _ (by simp [putTime]), ?_, ?_⟩
    · intro i hi
      rw [putSpace_row _ _ (by omega), putTime_row _ _ (by omega)]
    · simp [e, putSpace, putTime]
  · cases h

theorem stepSpace_spec (kw : Kw) (s s' : St) (hc : Consistent s) (h : stepSpace kw s = .ok s') : Consistent s' ∧ (∀ i, 4 ≤ i → s'.row i = s.row i) ∧
    s'.t = s.t ∧ s'.x = (kw.space_translation.bind (·[0]?)).getD s.x ∧ s'.y = (kw.space_translation.bind (·[1]?)).getD s.y ∧ s'.z = (kw.space_translation.bind (·[2]?)).getD s.z := by
  unfold stepSpace at h
  split at h
  · rename_i e
    cases h
    simp [e, hc]
  · rename_i x y z e
    cases h
    refine ⟨putSpace_consistent _ hc.w0, ?_, ?_⟩
    · intro i hi
      rw [putSpace_row _ _ (by omega)]
    · simp [e, putSpace]
  · cases h

theorem stepTime_spec (kw : Kw) (s s' : St) (hc : Consistent s) (h : stepTime kw s = .ok s') : Consistent s' ∧ (∀ i, 4 ≤ i → s'.row i = s.row i) ∧
    s'.t = kw.time_translation.join.getD s.t ∧ s'.x = s.x ∧ s'.y = s.y ∧ s'.z = s.z := by
  unfold stepTime at h
  split at h
  · rename_i e
    cases h
    simp [e, hc]
  · rename_i t e
    cases h
    refine ⟨putTime_consistent _ hc.w1 hc.w2 hc.w3, ?_, ?_⟩
    · intro i hi
      rw [putTime_row _ _ (by omega)]
    · simp [e, putTime]
  · cases h

/-- C35: the overrides.  The part with `ell <= 1` is given by the most specific keywords, the rest is that of the supertranslation. -/
theorem translations_spec (kw : Kw) (row out : Row ℂ) (ellMax : Int) (h1 : 1 ≤ ellMax) (hr : IsReal ellMax row) (h : translations kw row = .ok out) : ∃ t x y z, Low row t x y z ∧
    Low out (timeOf kw t) (spaceOf kw 0 x) (spaceOf kw 1 y) (spaceOf kw 2 z) ∧ (∀ i, 4 ≤ i → out i = row i) ∧ IsReal ellMax out := by
  have hc := initial_consistent row ellMax h1 hr
  unfold translations at h
  rcases e1 : stepSpacetime kw (initial row) with e | s1
  · rw [e1] at h; cases h
  rw [e1, ok_bind] at h
  rcases e2 : stepSpace kw s1 with e | s2
  · rw [e2] at h; cases h
  rw [e2, ok_bind] at h
  rcases e3 : stepTime kw s2 with e | s3
  · rw [e3] at h; cases h
  rw [e3, ok_bind] at h
  cases h
  obtain ⟨c1, r1, t1, x1, y1, z1⟩ := stepSpacetime_spec kw _ _ hc e1
  obtain ⟨c2, r2, t2, x2, y2, z2⟩ := stepSpace_spec kw _ _ c1 e2
  obtain ⟨c3, r3, t3, x3, y3, z3⟩ := stepTime_spec kw _ _ c2 e3
  have hrow : ∀ i, 4 ≤ i → s3.row i = row i := fun i hi => by rw [r3 i hi, r2 i hi, r1 i hi]; rfl
  refine ⟨_, _, _, _, hc.low, ?_, hrow, ?_⟩
  · have := c3.low
    rw [t3, x3, y3, z3, t2, x2, y2, z2, t1, x1, y1, z1] at this
    simpa only [timeOf, spaceOf, Option.getD_or] using this
  · intro ell m h0 hl hm
    have hm' := abs_le.mp hm
    by_cases h2 : 2 ≤ ell
    · have b1 : 4 ≤ lmIndex ell m 0 := by unfold lmIndex; nlinarith
      have b2 : 4 ≤ lmIndex ell (-m) 0 := by unfold lmIndex; nlinarith
      have := hr ell m h0 hl hm
      simpa only [weight, hrow _ b1, hrow _ b2] using this
    · have : (ell = 0 ∧ m = 0) ∨ (ell = 1 ∧ m = -1) ∨ (ell = 1 ∧ m = 0) ∨ (ell = 1 ∧ m = 1) := by omega
      have w0 := c3.w0
      have w1 := c3.w1
      have w2 := c3.w2
      have w3 := c3.w3
      rcases this with ⟨rfl, rfl⟩ | ⟨rfl, rfl⟩ | ⟨rfl, rfl⟩ | ⟨rfl, rfl⟩
      · simp [weight, lmIndex, w0, constantAs]
      · simp only [weight, lmIndex]
        norm_num [w1, w3, vectorAs]
        apply Complex.ext <;> simp
      · simp only [weight, lmIndex]
        norm_num [w2, vectorAs]
      · simp only [weight, lmIndex]
        norm_num [w1, w3, vectorAs]
        apply Complex.ext <;> simp

/-! ## Sizes -/

theorem pad_length (l : List ℂ) : (pad l).length = max 4 l.length := by
  unfold pad
  split
  · simp; omega
  · omega

/-- The given weights, and zeros after them. -/
theorem toRow_pad (l : List ℂ) (i : Nat) : toRow (pad l) i = l.getD i 0 := by
  unfold toRow pad
  rw [if_pos (by omega), Int.toNat_natCast]
  split
  · by_cases h : i < l.length
    · simp [List.getD, List.getElem?_append_left h]
    · simp only [List.getD, List.getElem?_append_right (not_lt.mp h), List.getElem?_eq_none (not_lt.mp h), List.getElem?_replicate]
      split <;> rfl
  · rfl

/-- C35: a number of weights is accepted if and only if, after the padding, it is that of all weights up to some `ell`. -/
theorem ellMaxOf_spec (l : List ℂ) (ellMax : Int) (h0 : 0 ≤ ellMax) : ellMaxOf l = .ok ellMax ↔ (l.length : Int) = (ellMax + 1) ^ 2 := by
  unfold ellMaxOf
  simp only
  constructor
  · intro h
    split at h
    · cases h
    · rename_i hc
      cases h
      exact (not_not.mp hc).symm
  · intro h
    obtain ⟨k, hk⟩ : ∃ k : ℕ, ellMax + 1 = k := ⟨(ellMax + 1).toNat, by omega⟩
    have hl : l.length = k ^ 2 := by
      rw [hk] at h
      exact_mod_cast h
    have hs : Nat.sqrt l.length = k := by rw [hl, Nat.sqrt_eq']
    rw [hs, if_neg]
    · congr 1; omega
    · rw [not_not, hl]
      push_cast
      ring

theorem ellMaxOf_error (l : List ℂ) (h : ∀ k : ℕ, l.length ≠ k ^ 2) : ellMaxOf l = .error .valueError := by
  unfold ellMaxOf
  simp only
  rw [if_pos]
  intro hc
  apply h (Nat.sqrt l.length)
  have : ((Nat.sqrt l.length : Int)) ^ 2 = l.length := by
    rw [← hc]; ring
  exact_mod_cast this.symm

theorem ellMaxOf_ok {l : List ℂ} {e : Int} (h : ellMaxOf (pad l) = .ok e) : 1 ≤ e ∧ ((pad l).length : Int) = (e + 1) ^ 2 := by
  unfold ellMaxOf at h
  simp only at h
  split at h
  · cases h
  · rename_i hc
    cases h
    refine ⟨?_, (not_not.mp hc).symm⟩
    have h4 : 4 ≤ (pad l).length := by rw [pad_length]; omega
    have : 2 ≤ Nat.sqrt (pad l).length := Nat.le_sqrt.mpr (by omega)
    omega

theorem superInput_ok {kw : Kw} {e : Int} {row : Row ℂ} (h : superInput kw = .ok (e, row)) : 1 ≤ e ∧ IsReal e row ∧
    ∀ ell m, 0 ≤ ell → ell ≤ e → |m| ≤ ell → weight row ell m = (weight (toRow (kw.supertranslation.getD [])) ell m + (-1) ^ m.natAbs * conj (weight (toRow (kw.supertranslation.getD [])) ell (-m))) / 2 := by
  unfold superInput at h
  split at h
  · rename_i hk
    cases h
    refine ⟨by decide, fun ell m _ _ _ => by simp [weight], fun ell m _ _ _ => ?_⟩
    simp [weight, toRow, hk]
  · rename_i l hk
    rcases he : ellMaxOf (pad l) with x | e'
    · rw [he] at h; cases h
    rw [he, ok_bind] at h
    cases h
    refine ⟨(ellMaxOf_ok he).1, imposeReality_isReal _ _, ?_⟩
    intro ell m h0 hl hm
    have hm' := abs_le.mp hm
    have key : ∀ m, -ell ≤ m → m ≤ ell → weight (toRow (pad l)) ell m = weight (toRow l) ell m := by
      intro m h1 h2
      have : 0 ≤ lmIndex ell m 0 := by unfold lmIndex; nlinarith
      obtain ⟨i, hi⟩ : ∃ i : ℕ, lmIndex ell m 0 = i := ⟨_, (Int.toNat_of_nonneg this).symm⟩
      unfold weight
      rw [hi, toRow_pad]
      simp [toRow]
    rw [imposeReality_spec _ _ _ _ hl hm, key m hm'.1 hm'.2, key (-m) (by omega) (by omega), hk]
    rfl

/-! ## The results -/

/-- What a successful call went through. -/
theorem process_ok {n : Int} {kw : Kw} {r : Result} (h : process n kw = .ok r) : ∃ row, superInput kw = .ok (r.ellMaxSuper, row) ∧ translations kw row = .ok r.supertranslation ∧
    workingEllMax kw n r.ellMaxSuper = .ok r.working_ell_max ∧ rotor kw = .ok r.frame_rotation ∧ velocity kw = .ok r.boost_velocity ∧ r.output_ell_max = kw.output_ell_max.getD n := by
  unfold process at h
  rcases e1 : superInput kw with e | ⟨e, row⟩
  · rw [e1] at h; cases h
  rw [e1, ok_bind] at h
  simp only at h
  rcases e2 : translations kw row with e | out
  · rw [e2] at h; cases h
  rw [e2, ok_bind] at h
  rcases e3 : workingEllMax kw n e with e | w
  · rw [e3] at h; cases h
  rw [e3, ok_bind] at h
  rcases e4 : rotor kw with e | R
  · rw [e4] at h; cases h
  rw [e4, ok_bind] at h
  rcases e5 : velocity kw with e | v
  · rw [e5] at h; cases h
  rw [e5, ok_bind] at h
  cases h
  exact ⟨row, rfl, e2, e3, rfl, rfl, rfl⟩

/-- C35: whatever is given, the supertranslation is real; for `ell >= 2` it is the real part of what is given, and for `ell <= 1` it is `t - x·r` with the most specific of the keywords that are given
(the real part of the supertranslation, which is zero if it is not given, for what is not). -/
theorem process_spec (n : Int) (kw : Kw) (r : Result) (h : process n kw = .ok r) :
    let given := weight (toRow (kw.supertranslation.getD []))
    let re := fun ell (m : Int) => (given ell m + (-1) ^ m.natAbs * conj (given ell (-m))) / 2
    IsReal r.ellMaxSuper r.supertranslation ∧
    (∀ ell m, 2 ≤ ell → ell ≤ r.ellMaxSuper → |m| ≤ ell → weight r.supertranslation ell m = re ell m) ∧
    ∃ t x y z, (∀ θ φ, Spec.Charges.eval re θ φ = ((t - (x * Spec.Charges.n θ φ 1 + y * Spec.Charges.n θ φ 2 + z * Spec.Charges.n θ φ 3) : ℝ) : ℂ)) ∧
      Low r.supertranslation (timeOf kw t) (spaceOf kw 0 x) (spaceOf kw 1 y) (spaceOf kw 2 z) := by
  intro given re
  obtain ⟨row, h1, h2, -⟩ := process_ok h
  obtain ⟨he, hr, hw⟩ := superInput_ok h1
  obtain ⟨t, x, y, z, hlow, hout, hrest, hreal⟩ := translations_spec kw row _ _ he hr h2
  refine ⟨hreal, ?_, t, x, y, z, ?_, hout⟩
  · intro ell m h0 hl hm
    have hm' := abs_le.mp hm
    have b1 : 4 ≤ lmIndex ell m 0 := by unfold lmIndex; nlinarith
    have := hw ell m (by omega) hl hm
    unfold weight at this ⊢
    rw [hrest _ b1]
    exact this
  · intro θ φ
    rw [← hlow θ φ]
    simp only [Spec.Charges.eval]
    rw [hw 0 0 (by decide) (by omega) (by decide), hw 1 (-1) (by decide) he (by decide), hw 1 0 (by decide) he (by decide), hw 1 1 (by decide) he (by decide)]

/-- C35: a real supertranslation without overrides is returned unchanged. -/
theorem process_unchanged (n : Int) (l : List ℂ) (kw : Kw) (hk : kw.supertranslation = some l) (h1 : kw.spacetime_translation = none) (h2 : kw.space_translation = none) (h3 : kw.time_translation = none)
    (r : Result) (h : process n kw = .ok r) (hr : IsReal r.ellMaxSuper (toRow l)) (ell m : Int) (h0 : 0 ≤ ell) (hl : ell ≤ r.ellMaxSuper) (hm : |m| ≤ ell) : weight r.supertranslation ell m = weight (toRow l) ell m := by
  obtain ⟨row, e1, e2, -⟩ := process_ok h
  have : r.supertranslation = row := by
    simp [translations, stepSpacetime, stepSpace, stepTime, h1, h2, h3, ok_bind, pure_eq_ok, initial] at e2
    exact e2.symm
  rw [this, (superInput_ok e1).2.2 ell m h0 hl hm, hk]
  simp only [Option.getD_some]
  rw [hr ell m h0 hl hm]
  simp only [map_mul, conj_sign, Complex.conj_conj]
  linear_combination (weight (toRow l) ell m / 2) * sign_sq m.natAbs

/-- C35: the rotor has norm 1 and the direction of the given quaternion, the velocity is as given and slower than light, and there are enough modes. -/
theorem process_rest (n : Int) (kw : Kw) (r : Result) (h : process n kw = .ok r) :
    (∃ q, mkQuaternion (kw.frame_rotation.getD [1, 0, 0, 0]) = .ok q ∧ Quaternion.normSq r.frame_rotation = 1 ∧ ∃ c : ℝ, 0 < c ∧ q = c • r.frame_rotation) ∧
    r.boost_velocity = kw.boost_velocity.getD [0, 0, 0] ∧ r.boost_velocity.length = 3 ∧ (r.boost_velocity.map (· ^ 2)).sum < 1 ∧ n ≤ r.working_ell_max := by
  obtain ⟨row, -, -, e3, e4, e5, -⟩ := process_ok h
  refine ⟨?_, ?_⟩
  · unfold rotor at e4
    rcases hq : mkQuaternion (kw.frame_rotation.getD [1, 0, 0, 0]) with e | q
    · rw [hq] at e4; cases e4
    rw [hq, ok_bind] at e4
    split at e4
    · cases e4
    · rename_i hc
      have e4' := Except.ok.inj e4
      rw [← e4']
      have hpos : 0 < √(Quaternion.normSq q) := lt_of_lt_of_le (by norm_num) (not_lt.mp hc)
      refine ⟨q, rfl, ?_, _, hpos, ?_⟩
      · rw [Quaternion.normSq_smul, inv_pow, Real.sq_sqrt Quaternion.normSq_nonneg, inv_mul_cancel₀]
        exact (Real.sqrt_pos.mp hpos).ne'
      · rw [smul_smul, mul_inv_cancel₀ hpos.ne', one_smul]
  · unfold velocity at e5
    simp only at e5
    split at e5
    · cases e5
    · rename_i hc
      rw [not_or, not_not, not_le] at hc
      rw [← Except.ok.inj e5]
      refine ⟨rfl, hc.1, ?_, ?_⟩
      · have := hc.2
        rw [Real.sqrt_lt' one_pos] at this
        simpa using this
      · unfold workingEllMax at e3
        simp only at e3
        split at e3
        · cases e3
        · rename_i hw
          have := Except.ok.inj e3
          omega

/-- C35: an ill-formed argument is an error, whatever the others are (of the first ill-formed argument, in the order of the code). -/
theorem process_errors (n : Int) (kw : Kw) :
    (∀ l, kw.supertranslation = some l → (∀ k : ℕ, max 4 l.length ≠ k ^ 2) → process n kw = .error .valueError) ∧
    (∀ l, kw.spacetime_translation = some l → l.length ≠ 4 → ∃ e, process n kw = .error e) ∧
    (∀ l, kw.space_translation = some l → l.length ≠ 3 → ∃ e, process n kw = .error e) ∧
    (kw.time_translation = some none → ∃ e, process n kw = .error e) ∧
    (∀ w, kw.working_ell_max = some w → w < n → ∃ e, process n kw = .error e) ∧
    (∀ v, kw.boost_velocity = some v → v.length ≠ 3 ∨ 1 ≤ √((v.map (· ^ 2)).sum) → ∃ e, process n kw = .error e) ∧
    (∀ q, kw.frame_rotation = some q → (∀ x ∈ q, x = 0) → ∃ e, process n kw = .error e) := by
  have neg : (∀ r, process n kw ≠ .ok r) → ∃ e, process n kw = .error e := by
    intro h
    rcases hp : process n kw with e | r
    · exact ⟨e, rfl⟩
    · exact absurd hp (h r)
  refine ⟨?_, ?_, ?_, ?_, ?_, ?_, ?_⟩
  · intro l hl hk
    have : superInput kw = .error .valueError := by
      unfold superInput
      simp only [hl]
      rw [ellMaxOf_error (pad l) (fun k => by rw [pad_length]; exact hk k)]
      rfl
    simp [process, this]
    rfl
  · intro l hl hk
    refine neg fun r hr => ?_
    obtain ⟨row, -, e2, -⟩ := process_ok hr
    unfold translations at e2
    have : stepSpacetime kw (initial row) = .error .typeError := by
      unfold stepSpacetime
      rw [hl]
      split
      · rename_i h; cases h
      · rename_i h; cases h; simp at hk
      · rfl
    rw [this] at e2
    cases e2
  · intro l hl hk
    refine neg fun r hr => ?_
    obtain ⟨row, -, e2, -⟩ := process_ok hr
    unfold translations at e2
    have : ∀ s, stepSpace kw s = .error .typeError := by
      intro s
      unfold stepSpace
      rw [hl]
      split
      · rename_i h; cases h
      · rename_i h; cases h; simp at hk
      · rfl
    rcases e1 : stepSpacetime kw (initial row) with e | s1
    · rw [e1] at e2; cases e2
    rw [e1, ok_bind, this] at e2
    cases e2
  · intro hl
    refine neg fun r hr => ?_
    obtain ⟨row, -, e2, -⟩ := process_ok hr
    unfold translations at e2
    rcases e1 : stepSpacetime kw (initial row) with e | s1
    · rw [e1] at e2; cases e2
    rw [e1, ok_bind] at e2
    rcases e3 : stepSpace kw s1 with e | s2
    · rw [e3] at e2; cases e2
    rw [e3, ok_bind] at e2
    simp only [stepTime, hl] at e2
    cases e2
  · intro w hw hn
    refine neg fun r hr => ?_
    have h1 := (process_rest n kw r hr).2.2.2.2
    obtain ⟨row, -, -, e3, -⟩ := process_ok hr
    simp only [workingEllMax, hw, Option.getD_some, if_pos hn] at e3
    cases e3
  · intro v hv hc
    refine neg fun r hr => ?_
    obtain ⟨row, -, -, -, -, e5, -⟩ := process_ok hr
    simp only [velocity, hv, Option.getD_some, if_pos hc] at e5
    cases e5
  · intro q hq hz
    refine neg fun r hr => ?_
    obtain ⟨⟨q', e1, e2, c, hc, e3⟩, -⟩ := process_rest n kw r hr
    rw [hq, Option.getD_some] at e1
    have hq0 : q' = 0 := by
      unfold mkQuaternion at e1
      split at e1
      · cases e1; rfl
      · cases e1
        have := hz _ (List.mem_cons_self ..)
        rw [this]; rfl
      · cases e1
        have a := hz _ (List.mem_cons_self ..)
        have b := hz _ (List.mem_cons_of_mem _ (List.mem_cons_self ..))
        have c := hz _ (List.mem_cons_of_mem _ (List.mem_cons_of_mem _ (List.mem_cons_self ..)))
        rw [a, b, c]; rfl
      · cases e1
        have a := hz _ (List.mem_cons_self ..)
        have b := hz _ (List.mem_cons_of_mem _ (List.mem_cons_self ..))
        have c := hz _ (List.mem_cons_of_mem _ (List.mem_cons_of_mem _ (List.mem_cons_self ..)))
        have d := hz _ (List.mem_cons_of_mem _ (List.mem_cons_of_mem _ (List.mem_cons_of_mem _ (List.mem_cons_self ..))))
        rw [a, b, c, d]; rfl
      · cases e1
    have h0 := congrArg Quaternion.normSq (e3.symm.trans hq0)
    rw [Quaternion.normSq_smul, e2, map_zero, mul_one] at h0
    exact hc.ne' (pow_eq_zero_iff (two_ne_zero) |>.mp h0)

theorem rotor_ok {kw : Kw} {q : Quaternion ℝ} (h : mkQuaternion (kw.frame_rotation.getD [1, 0, 0, 0]) = .ok q) (h1 : 1 ≤ Quaternion.normSq q) : ∃ R, rotor kw = .ok R := by
  have : ¬ √(Quaternion.normSq q) < 3e-16 := by
    rw [not_lt]
    exact le_trans (by norm_num) (Real.one_le_sqrt.mpr h1)
  unfold rotor
  rw [h, ok_bind, if_neg this]
  exact ⟨_, rfl⟩

/-- An example: a supertranslation with nine weights that is not real, all three overrides, a quaternion that is not a rotor, and a boost. -/
noncomputable def sample : Kw :=
  { supertranslation := some [1, 2, 3, 4, 5, 6, 7, 8, 9], spacetime_translation := some [1, 2, 3, 4], space_translation := some [5, 6, 7], time_translation := some (some 8), frame_rotation := some [0, 2, 0, 0], boost_velocity := some [1/2, 0, 0] }

/-- The hypotheses are met by it. -/
example : ∃ r, process 8 sample = .ok r ∧ r.ellMaxSuper = 2 ∧ timeOf sample 0 = 8 ∧ spaceOf sample 1 0 = 6 := by
  have h1 : superInput sample = .ok (2, imposeReality 2 (toRow [1, 2, 3, 4, 5, 6, 7, 8, 9])) := by
    have : ellMaxOf (pad [1, 2, 3, 4, 5, 6, 7, 8, 9]) = .ok 2 := (ellMaxOf_spec _ 2 (by decide)).mpr (by simp [pad])
    simp only [superInput, sample, this, ok_bind]
    simp [pad, pure_eq_ok]
  obtain ⟨R, h2⟩ := rotor_ok (kw := sample) (q := ⟨0, 2, 0, 0⟩) rfl ((show (1 : ℝ) ≤ 0 ^ 2 + 2 ^ 2 + 0 ^ 2 + 0 ^ 2 by norm_num).trans (Quaternion.normSq_def' (R := ℝ) ⟨0, 2, 0, 0⟩).ge)
  have h3 : velocity sample = .ok [1/2, 0, 0] := by
    unfold velocity
    refine if_neg ?_
    rw [not_or, not_le]
    refine ⟨by simp [sample], ?_⟩
    rw [Real.sqrt_lt' one_pos]
    simp [sample]
    norm_num
  obtain ⟨out, h4⟩ : ∃ out, translations sample (imposeReality 2 (toRow [1, 2, 3, 4, 5, 6, 7, 8, 9])) = .ok out := ⟨_, rfl⟩
  have h5 : workingEllMax sample 8 2 = .ok 18 := rfl
  refine ⟨⟨R, [1/2, 0, 0], 2, out, 18, 8⟩, ?_, rfl, ?_, ?_⟩
  · unfold process
    rw [h1, ok_bind]
    simp only
    rw [h4, ok_bind, h5, ok_bind, h2, ok_bind, h3, ok_bind]
    rfl
  · simp [timeOf, sample]
  · simp [spaceOf, sample]

/-! ## The other implementation -/

theorem forM_ok {α : Type} (L : List α) (f : α → Py Unit) : L.forM f = .ok () ↔ ∀ x ∈ L, f x = .ok () := by
  induction L with
  | nil => simp [pure_eq_ok]
  | cons x L ih =>
    rw [List.forM_eq_forM, List.forM_cons] 
    rcases hx : f x with e | u
    · simp only [List.mem_cons, forall_eq_or_imp, hx]
      constructor
      · intro h; cases h
      · rintro ⟨h, -⟩; cases h
    · rw [ok_bind]
      simp only [List.mem_cons, forall_eq_or_imp, hx, true_and]
      exact ih

/-- C35: `process_transformation_kwargs` accepts a supertranslation if and only if it is real within `3e-16 + 1e-15 |b|`. -/
theorem checkReality_spec (ellMax : Int) (row : Row ℂ) : checkReality ellMax row = .ok () ↔
    ∀ ell m, ell ≤ ellMax → 0 ≤ m → m ≤ ell → ‖weight row ell m - (-1) ^ m.natAbs * conj (weight row ell (-m))‖ ≤ 3e-16 + 1e-15 * ‖weight row ell (-m)‖ := by
  rw [checkReality, forM_ok]
  constructor
  · intro h ell m hl h0 hm
    have := h (ell, m) (mem_labels.mpr ⟨hl, h0, hm⟩)
    unfold checkStep at this
    simp only at this
    split at this
    · cases this
    · rename_i hc
      exact not_lt.mp hc
  · rintro h ⟨ell, m⟩ hp
    obtain ⟨hl, h0, hm⟩ := mem_labels.mp hp
    unfold checkStep
    exact if_neg (not_lt.mpr (h ell m hl h0 hm))

/-- Two states that are the same on the weights with the given indices. -/
def Same (P : Int → Prop) (s s' : St) : Prop := (∀ i, P i → s.row i = s'.row i) ∧ s.t = s'.t ∧ s.x = s'.x ∧ s.y = s'.y ∧ s.z = s'.z

theorem putTime_same {P : Int → Prop} {s s' : St} (h : Same P s s') : Same P (putTime s) (putTime s') := by
  obtain ⟨h1, h2, h3⟩ := h
  refine ⟨fun i hi => ?_, h2, h3⟩
  simp only [putTime, Row.set, h2, h1 i hi]

theorem putSpace_same {P : Int → Prop} {s s' : St} (h : Same P s s') : Same P (putSpace s) (putSpace s') := by
  obtain ⟨h1, h2, h3, h4, h5⟩ := h
  refine ⟨fun i hi => ?_, h2, h3, h4, h5⟩
  simp only [putSpace, Row.set, h3, h4, h5, h1 i hi]

theorem stepSpacetime_same {P : Int → Prop} {kw : Kw} {s s' a : St} (h : Same P s s') (ha : stepSpacetime kw s = .ok a) : ∃ a', stepSpacetime kw s' = .ok a' ∧ Same P a a' := by
  unfold stepSpacetime at ha ⊢
  split at ha
  · cases ha; exact ⟨_, rfl, h⟩
  · cases ha; exact ⟨_, rfl, putSpace_same (putTime_same ⟨h.1, rfl, rfl, rfl, rfl⟩)⟩
  · cases ha

theorem stepSpace_same {P : Int → Prop} {kw : Kw} {s s' a : St} (h : Same P s s') (ha : stepSpace kw s = .ok a) : ∃ a', stepSpace kw s' = .ok a' ∧ Same P a a' := by
  unfold stepSpace at ha ⊢
  split at ha
  · cases ha; exact ⟨_, rfl, h⟩
  · cases ha; exact ⟨_, rfl, putSpace_same ⟨h.1, h.2.1, rfl, rfl, rfl⟩⟩
  · cases ha

theorem stepTime_same {P : Int → Prop} {kw : Kw} {s s' a : St} (h : Same P s s') (ha : stepTime kw s = .ok a) : ∃ a', stepTime kw s' = .ok a' ∧ Same P a a' := by
  unfold stepTime at ha ⊢
  split at ha
  · cases ha; exact ⟨_, rfl, h⟩
  · cases ha; exact ⟨_, rfl, putTime_same ⟨h.1, rfl, h.2.2⟩⟩
  · cases ha

theorem translations_same {P : Int → Prop} (hP : P 0 ∧ P 1 ∧ P 2 ∧ P 3) {kw : Kw} {row row' out : Row ℂ} (h : ∀ i, P i → row i = row' i) (ho : translations kw row = .ok out) :
    ∃ out', translations kw row' = .ok out' ∧ ∀ i, P i → out i = out' i := by
  have h0 : Same P (initial row) (initial row') := by
    obtain ⟨p0, p1, p2, p3⟩ := hP
    refine ⟨h, ?_, ?_, ?_, ?_⟩ <;> simp only [initial, h 0 p0, h 1 p1, h 2 p2, h 3 p3]
  unfold translations at ho ⊢
  rcases e1 : stepSpacetime kw (initial row) with e | s1
  · rw [e1] at ho; cases ho
  rw [e1, ok_bind] at ho
  rcases e2 : stepSpace kw s1 with e | s2
  · rw [e2] at ho; cases ho
  rw [e2, ok_bind] at ho
  rcases e3 : stepTime kw s2 with e | s3
  · rw [e3] at ho; cases ho
  rw [e3, ok_bind] at ho
  cases ho
  obtain ⟨a1, f1, g1⟩ := stepSpacetime_same h0 e1
  obtain ⟨a2, f2, g2⟩ := stepSpace_same g1 e2
  obtain ⟨a3, f3, g3⟩ := stepTime_same g2 e3
  exact ⟨a3.row, by rw [f1, ok_bind, f2, ok_bind, f3, ok_bind]; rfl, g3.1⟩

/-- C35: when the supertranslation is real and the numbers of points suffice, the other implementation also accepts the keywords and gives the same supertranslation, rotation and velocity. -/
theorem implementations_agree (n : Int) (kw : Kw) (r : Result) (h : process n kw = .ok r) (hr : IsReal r.ellMaxSuper (toRow (kw.supertranslation.getD [])))
    (ht : ∀ k, kw.n_theta = some k → 2 * n + 1 ≤ k) (hp : ∀ k, kw.n_phi = some k → 2 * n + 1 ≤ k) : ∃ g, gridProcess n kw = .ok g ∧
    g.ellMaxSuper = r.ellMaxSuper ∧ g.frame_rotation = r.frame_rotation ∧ g.boost_velocity = r.boost_velocity ∧ 2 * n + 1 ≤ g.n_theta ∧ 2 * n + 1 ≤ g.n_phi ∧
    ∀ ell m, 0 ≤ ell → ell ≤ r.ellMaxSuper → |m| ≤ ell → weight g.supertranslation ell m = weight r.supertranslation ell m := by
  obtain ⟨row, e1, e2, e3, e4, e5, -⟩ := process_ok h
  obtain ⟨he, -, hw⟩ := superInput_ok e1
  have hw' : ∀ ell m, 0 ≤ ell → ell ≤ r.ellMaxSuper → |m| ≤ ell → weight row ell m = weight (toRow (kw.supertranslation.getD [])) ell m := by
    intro ell m h0 hl hm
    rw [hw ell m h0 hl hm, hr ell m h0 hl hm]
    simp only [map_mul, conj_sign, Complex.conj_conj]
    linear_combination (weight (toRow (kw.supertranslation.getD [])) ell m / 2) * sign_sq m.natAbs
  -- the indices of weights
  let P : Int → Prop := fun i => ∃ ell m, 0 ≤ ell ∧ ell ≤ r.ellMaxSuper ∧ |m| ≤ ell ∧ i = lmIndex ell m 0
  have hP : P 0 ∧ P 1 ∧ P 2 ∧ P 3 := ⟨⟨0, 0, by omega, by omega, by simp, rfl⟩, ⟨1, -1, by omega, he, by simp, rfl⟩, ⟨1, 0, by omega, he, by simp, rfl⟩, ⟨1, 1, by omega, he, by simp, rfl⟩⟩
  have hpad : ∀ i, P i → row i = toRow (pad (kw.supertranslation.getD [])) i := by
    rintro i ⟨ell, m, h0, hl, hm, rfl⟩
    have hm' := abs_le.mp hm
    have hnn : 0 ≤ lmIndex ell m 0 := by unfold lmIndex; nlinarith
    have := hw' ell m h0 hl hm
    unfold weight at this
    rw [this]
    obtain ⟨i, hi⟩ : ∃ i : ℕ, lmIndex ell m 0 = i := ⟨_, (Int.toNat_of_nonneg hnn).symm⟩
    rw [hi, toRow_pad]
    simp [toRow]
  have hg : ∃ row', gridSuperInput kw = .ok (r.ellMaxSuper, row') ∧ ∀ i, P i → row i = row' i := by
    unfold superInput at e1
    unfold gridSuperInput
    split at e1
    · rename_i hk
      have := Prod.mk.inj (Except.ok.inj e1)
      rw [← this.1, ← this.2]
      exact ⟨_, rfl, fun _ _ => rfl⟩
    · rename_i l hk
      rw [hk, Option.getD_some] at hpad
      rcases hel : ellMaxOf (pad l) with e | e
      · rw [hel] at e1; cases e1
      rw [hel, ok_bind] at e1
      have e1' := Prod.mk.inj (Except.ok.inj e1)
      have hch : checkReality e (toRow (pad l)) = .ok () := by
        rw [checkReality_spec, e1'.1]
        intro ell m hl h0 hm
        have a1 := hpad (lmIndex ell m 0) ⟨ell, m, by omega, hl, by rw [abs_le]; omega, rfl⟩
        have a2 := hpad (lmIndex ell (-m) 0) ⟨ell, -m, by omega, hl, by rw [abs_neg, abs_le]; omega, rfl⟩
        have hreal := imposeReality_isReal r.ellMaxSuper (toRow (pad l)) ell (-m) (by omega) hl (by rw [abs_neg, abs_le]; omega)
        have hrow : imposeReality r.ellMaxSuper (toRow (pad l)) = row := by rw [← e1'.1]; exact e1'.2
        rw [hrow] at hreal
        unfold weight at hreal ⊢
        rw [neg_neg, a1, a2, Int.natAbs_neg] at hreal
        rw [← hreal, sub_self, norm_zero]
        positivity
      rw [ok_bind, hch, ok_bind, e1'.1]
      exact ⟨_, rfl, hpad⟩
  obtain ⟨row', g1, g2⟩ := hg
  obtain ⟨out', g3, g4⟩ := translations_same hP g2 e2
  have hpts : ∀ o : Option Int, (∀ k, o = some k → 2 * n + 1 ≤ k) → ∃ k, gridPoints o n r.ellMaxSuper = .ok k ∧ 2 * n + 1 ≤ k := by
    intro o ho
    refine ⟨o.getD (2 * (n + r.ellMaxSuper) + 1), ?_, ?_⟩
    · unfold gridPoints
      refine if_neg ?_
      cases o with
      | none => simp only [Option.getD_none]; omega
      | some k => have := ho k rfl; simp only [Option.getD_some]; omega
    · cases o with
      | none => simp only [Option.getD_none]; omega
      | some k => exact ho k rfl
  obtain ⟨k1, t1, t2⟩ := hpts _ ht
  obtain ⟨k2, t3, t4⟩ := hpts _ hp
  refine ⟨⟨out', r.ellMaxSuper, n + r.ellMaxSuper, k1, k2, r.frame_rotation, r.boost_velocity⟩, ?_, rfl, rfl, rfl, t2, t4, ?_⟩
  · unfold gridProcess
    rw [g1, ok_bind]
    simp only
    rw [g3, ok_bind, t1, ok_bind, t3, ok_bind, e4, ok_bind, e5, ok_bind]
    rfl
  · intro ell m h0 hl hm
    exact (g4 _ ⟨ell, m, h0, hl, hm, rfl⟩).symm

/-- Where they differ: `[0, 1, 0, 0]` is not real.  One takes the real part, the other refuses. -/
theorem implementations_differ : (∃ row, superInput { supertranslation := some [0, 1, 0, 0] } = .ok (1, row) ∧ weight row 1 (-1) = 1 / 2) ∧ gridSuperInput { supertranslation := some [0, 1, 0, 0] } = .error .valueError := by
  have hel : ellMaxOf (pad [0, 1, 0, 0]) = .ok 1 := (ellMaxOf_spec _ 1 (by decide)).mpr (by simp [pad])
  constructor
  · refine ⟨imposeReality 1 (toRow (pad [0, 1, 0, 0])), ?_, ?_⟩
    · simp only [superInput, hel, ok_bind]
      rfl
    · rw [imposeReality_spec 1 _ 1 (-1) (by decide) (by decide)]
      simp [weight, lmIndex, toRow, pad]
  · have hc : checkReality 1 (toRow (pad [0, 1, 0, 0])) ≠ .ok () := by
      intro h
      have := (checkReality_spec _ _).mp h 1 1 (by decide) (by decide) (by decide)
      simp [weight, lmIndex, toRow, pad] at this
      norm_num at this
    have hv : ∀ (L : List (Int × Int)) (row : Row ℂ), L.forM (checkStep row) = .ok () ∨ L.forM (checkStep row) = .error .valueError := by
      intro L row
      induction L with
      | nil => left; rfl
      | cons p L ih =>
        have : checkStep row p = .ok () ∨ checkStep row p = .error .valueError := by
          unfold checkStep
          simp only
          split
          · right; rfl
          · left; rfl
        rw [List.forM_eq_forM, List.forM_cons]
        rcases this with h | h
        · rw [h, ok_bind]; exact ih
        · rw [h]; right; rfl
    simp only [gridSuperInput, hel, ok_bind]
    rcases hv (labels 1) (toRow (pad [0, 1, 0, 0])) with h | h
    · exact absurd h hc
    · unfold checkReality
      rw [h]
      rfl

end Verif.Props.TransformKwargs
