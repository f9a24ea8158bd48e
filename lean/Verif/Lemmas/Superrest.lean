import Verif.Spec.Superrest
import Verif.Lemmas.Modes
import Verif.Lemmas.BmsElement
import Verif.Props.Rotation
import Mathlib.Tactic.FieldSimp
import Mathlib.Tactic.LinearCombination

namespace Verif.Lemmas.Superrest

open Verif Verif.Modes Verif.Superrest Verif.Spec.Superrest

theorem scaleSlice_get (row : Row ℂ) (lo hi : Int) (v : ℂ) (j : Int) : scaleSlice row lo hi v j = if lo ≤ j ∧ j < hi then row j * v else row j := by
  unfold scaleSlice
  split_ifs with h
  · have := Row.assign_map row (pyRange lo hi) id (fun i => row i * v) (fun x _ y _ h => h) (pyRange_nodup lo hi) j (mem_pyRange.mpr h)
    simpa using this
  · exact Row.assign_not_mem row _ _ j (fun hm => h (mem_pyRange.mp hm))

theorem block (ell m ell' : Int) (h0 : 0 ≤ ell) (h0' : 0 ≤ ell') (hm : IsMode ell m) : (lmIndex ell' (-ell') 0 ≤ lmIndex ell m 0 ∧ lmIndex ell m 0 < lmIndex ell' ell' 0 + 1) ↔ ell = ell' := by
  obtain ⟨h1, h2⟩ := hm
  unfold lmIndex
  constructor
  · rintro ⟨a, b⟩
    rcases lt_trichotomy ell ell' with h | h | h
    · exfalso
      nlinarith
    · exact h
    · exfalso
      nlinarith
  · rintro rfl
    constructor <;> nlinarith

/-- The loop over `ell` multiplies each block by its factor. -/
theorem loop_get (g : Int → ℂ) (h : Row ℂ) (n : Nat) (ell m : Int) (hm : IsMode ell m) :
    ((pyRange 0 n).foldl (fun r l => scaleSlice r (lmIndex l (-l) 0) (lmIndex l l 0 + 1) (g l)) h) (lmIndex ell m 0) = if ell < n then h (lmIndex ell m 0) * g ell else h (lmIndex ell m 0) := by
  have h0 : 0 ≤ ell := by
    have := hm.1.trans hm.2
    omega
  induction n with
  | zero =>
    rw [show pyRange 0 ((0 : Nat) : Int) = [] from pyRange_empty (by simp), if_neg (by push_cast; omega)]
    rfl
  | succ n ih =>
    push_cast
    rw [pyRange_snoc (by omega : (0 : Int) ≤ n), List.foldl_append, List.foldl_cons, List.foldl_nil, scaleSlice_get]
    have hb := block ell m n h0 (by omega) hm
    by_cases he : ell = (n : Int)
    · rw [if_pos (hb.mpr he), ih, if_neg (by omega), if_pos (by omega), he]
    · rw [if_neg (fun c => he (hb.mp c)), ih]
      by_cases h' : ell < (n : Int)
      · rw [if_pos h', if_pos (by omega)]
      · rw [if_neg h', if_neg (by omega)]

theorem loop_get' (g : Int → ℂ) (h : Row ℂ) (ellMax : Int) (ell m : Int) (hm : IsMode ell m) :
    ((pyRange 0 (ellMax + 1)).foldl (fun r l => scaleSlice r (lmIndex l (-l) 0) (lmIndex l l 0 + 1) (g l)) h) (lmIndex ell m 0) = if ell ≤ ellMax then h (lmIndex ell m 0) * g ell else h (lmIndex ell m 0) := by
  have h0 : 0 ≤ ell := by
    have := hm.1.trans hm.2
    omega
  by_cases hn : 0 ≤ ellMax + 1
  · obtain ⟨n, hn⟩ := Int.eq_ofNat_of_zero_le hn
    rw [hn, loop_get g h n ell m hm]
    by_cases h' : ell < (n : Int)
    · rw [if_pos h', if_pos (by omega)]
    · rw [if_neg h', if_neg (by omega)]
  · rw [pyRange_empty (by omega), if_neg (by omega)]
    rfl

/-! Conjugation. -/

theorem sqrt_index (ell m : Int) (hm : IsMode ell m) : Int.sqrt (lmIndex ell m 0) = ell := by
  obtain ⟨h1, h2⟩ := hm
  have h0 : 0 ≤ ell := by omega
  obtain ⟨n, rfl⟩ := Int.eq_ofNat_of_zero_le h0
  unfold Int.sqrt
  congr 1
  have hi : (0 : Int) ≤ lmIndex n m 0 := by
    unfold lmIndex
    nlinarith
  obtain ⟨k, hk⟩ := Int.eq_ofNat_of_zero_le hi
  rw [hk, Int.toNat_natCast]
  unfold lmIndex at hk
  symm
  rw [Nat.eq_sqrt]
  constructor
  · have : (n : Int) * n ≤ k := by nlinarith
    exact_mod_cast this
  · have : (k : Int) < (n + 1) * (n + 1) := by nlinarith
    exact_mod_cast this

theorem bar_get (s : Int) (row : Row ℂ) (ell m : Int) (hm : IsMode ell m) :
    barRow s row (lmIndex ell m 0) = (-1) ^ (s + m).natAbs * (starRingEnd ℂ) (row (lmIndex ell (-m) 0)) := by
  unfold barRow
  simp only [sqrt_index ell m hm]
  have : lmIndex ell m 0 - ell * (ell + 1) = m := by
    unfold lmIndex
    ring
  rw [this]

theorem neg_one_pow_even (a b : Int) (h : 2 ∣ a - b) : (-1 : ℂ) ^ a.natAbs = (-1) ^ b.natAbs := by
  have e : ∀ c : Int, (-1 : ℂ) ^ c.natAbs = if 2 ∣ c then 1 else -1 := by
    intro c
    split_ifs with hc
    · exact (Int.natAbs_dvd_natAbs.mpr hc |> fun h => Even.neg_one_pow (even_iff_two_dvd.mpr h))
    · refine Odd.neg_one_pow (Nat.not_even_iff_odd.mp fun hh => hc ?_)
      exact Int.natAbs_dvd_natAbs.mp (even_iff_two_dvd.mp hh)
  rw [e, e]
  by_cases hb : (2 : Int) ∣ b
  · rw [if_pos hb, if_pos (by omega)]
  · rw [if_neg hb, if_neg (by omega)]

theorem isMode_neg {ell m : Int} (h : IsMode ell m) : IsMode ell (-m) := ⟨by have := h.2; omega, by have := h.1; omega⟩

/-- Twice the conjugate is the function itself. -/
theorem bar_bar (s : Int) (row : Row ℂ) (ell m : Int) (hm : IsMode ell m) : barRow (-s) (barRow s row) (lmIndex ell m 0) = row (lmIndex ell m 0) := by
  rw [bar_get _ _ _ _ hm, bar_get _ _ _ _ (isMode_neg hm), neg_neg, map_mul, map_pow, map_neg, map_one, Complex.conj_conj, ← mul_assoc, neg_one_pow_even (s + -m) (-s + m) ⟨s - m, by ring⟩,
    ← pow_add, Even.neg_one_pow ⟨_, rfl⟩, one_mul]

/-! Rotations about the z axis. -/

open Verif.Wigner

theorem coef_diag (n : ℕ) (p s : ℂ) (i j : ℕ) (hi : i ≤ n) (hj : j ≤ n) : coef n p 0 0 s i j = if i = j then p ^ i * s ^ (n - i) else 0 := by
  unfold coef
  split_ifs with h
  · subst h
    rw [Finset.sum_eq_single 0]
    · simp
    · intro ρ _ h0
      simp [h0]
    · intro h0
      exfalso
      apply h0
      simp [hi]
  · apply Finset.sum_eq_zero
    intro ρ hρ
    rw [Finset.mem_filter] at hρ
    obtain ⟨-, h1, h2⟩ := hρ
    by_cases h0 : ρ = 0
    · subst h0
      have : j + 0 - i ≠ 0 := by omega
      rw [zero_pow this]
      ring
    · rw [zero_pow h0]
      ring

theorem nu_pos (n j : ℕ) : 0 < nu n j := Real.sqrt_pos.mpr (by positivity)

theorem Dlm_z (ell : Int) (R : Quaternion ℝ) (hR : Rb R = 0) (mp m : Int) (h1 : IsMode ell mp) (h2 : IsMode ell m) :
    Dlm ell R mp m = if mp = m then Ra R ^ (ell + m).toNat * (starRingEnd ℂ) (Ra R) ^ (ell - m).toNat else 0 := by
  obtain ⟨a1, a2⟩ := h1
  obtain ⟨b1, b2⟩ := h2
  unfold Dlm D
  rw [hR, map_zero, neg_zero, coef_diag _ _ _ _ _ (by omega) (by omega)]
  by_cases h : mp = m
  · subst h
    rw [if_pos rfl, if_pos rfl, div_self (nu_pos _ _).ne', Complex.ofReal_one, one_mul]
    congr 2
    omega
  · rw [if_neg h, if_neg (by omega), mul_zero]

theorem rot_z (ell : Int) (R : Quaternion ℝ) (hR : Rb R = 0) (f : Int → ℂ) (m : Int) (hm : IsMode ell m) :
    Spec.Rotation.rot ell R f m = f m * (Ra R ^ (ell + m).toNat * (starRingEnd ℂ) (Ra R) ^ (ell - m).toNat) := by
  unfold Spec.Rotation.rot
  rw [Finset.sum_eq_single m]
  · rw [Dlm_z ell R hR m m hm hm, if_pos rfl]
  · intro mp hmp hne
    rw [Finset.mem_Icc] at hmp
    rw [Dlm_z ell R hR mp m hmp hm, if_neg hne, mul_zero]
  · intro h
    exact absurd (Finset.mem_Icc.mpr hm) h

theorem phase (ell m : Int) (hm : IsMode ell m) (θ : ℝ) :
    Complex.exp (θ * Complex.I) ^ (ell + m).toNat * (starRingEnd ℂ) (Complex.exp (θ * Complex.I)) ^ (ell - m).toNat = Complex.exp (2 * m * θ * Complex.I) := by
  obtain ⟨h1, h2⟩ := hm
  rw [← Complex.exp_conj, ← Complex.exp_nat_mul, ← Complex.exp_nat_mul, ← Complex.exp_add]
  congr 1
  rw [map_mul, Complex.conj_I, Complex.conj_ofReal]
  have e1 : (((ell + m).toNat : ℕ) : ℂ) = ell + m := by
    have : (((ell + m).toNat : ℕ) : ℤ) = ell + m := Int.toNat_of_nonneg (by omega)
    exact_mod_cast congrArg (Int.cast : ℤ → ℂ) this
  have e2 : (((ell - m).toNat : ℕ) : ℂ) = ell - m := by
    have : (((ell - m).toNat : ℕ) : ℤ) = ell - m := Int.toNat_of_nonneg (by omega)
    exact_mod_cast congrArg (Int.cast : ℤ → ℂ) this
  rw [e1, e2]
  ring

/-- The rotor of `rotation`. -/
noncomputable def zRotor (phi : ℝ) : Quaternion ℝ := AbdTransform.expRotor ![0, 0, 1] (-phi / 2)

theorem Ra_zRotor (phi : ℝ) : Ra (star (zRotor phi)) = Complex.exp ((phi / 2 : ℝ) * Complex.I) := by
  have e1 : (zRotor phi).re = Real.cos (-phi / 2) := rfl
  have e2 : (zRotor phi).imK = Real.sin (-phi / 2) * 1 := rfl
  unfold Ra
  rw [Complex.exp_mul_I, ← Complex.ofReal_cos, ← Complex.ofReal_sin]
  rw [Quaternion.re_star, Quaternion.imK_star, e1, e2, show -phi / 2 = -(phi / 2) by ring, Real.cos_neg, Real.sin_neg]
  apply Complex.ext
  · simp only [Complex.add_re, Complex.mul_re, Complex.ofReal_re, Complex.ofReal_im, Complex.I_re, Complex.I_im]
    ring
  · simp only [Complex.add_im, Complex.mul_im, Complex.ofReal_re, Complex.ofReal_im, Complex.I_re, Complex.I_im]
    ring

theorem Rb_zRotor (phi : ℝ) : Rb (star (zRotor phi)) = 0 := by
  have e1 : (zRotor phi).imJ = Real.sin (-phi / 2) * 0 := rfl
  have e2 : (zRotor phi).imI = Real.sin (-phi / 2) * 0 := rfl
  unfold Rb
  rw [Quaternion.imJ_star, Quaternion.imI_star, e1, e2]
  apply Complex.ext <;> simp

end Verif.Lemmas.Superrest
