import Verif.Spec.GridMultiply
import Verif.Lemmas.WignerProduct
import Verif.Lemmas.Modes
import Mathlib.RingTheory.RootsOfUnity.Complex

/-!
# Products of spin-weighted functions, and functions that vanish on the grid
-/

namespace Verif.GridMultiply

open Verif Verif.Modes Verif.Superrest Spec Wigner Finset ComplexConjugate

/-! ## Products -/

/-- Unit rotors. -/
abbrev U := { R : Quaternion ℝ // Spec.Unit R }

theorem unit_det {R : Quaternion ℝ} (h : Spec.Unit R) : Ra R * conj (Ra R) - -conj (Rb R) * Rb R = 1 := by
  unfold Spec.Unit at h
  apply Complex.ext
  · simp [Ra, Rb]; linarith
  · simp [Ra, Rb]; ring

/-- The matrix of a unit rotor. -/
noncomputable def toSL (R : U) : SL := ⟨(Ra R.1, -conj (Rb R.1), Rb R.1, conj (Ra R.1)), unit_det R.2⟩

/-- Harmonics on unit rotors. -/
noncomputable def YU (s ell m : Int) : U → ℂ := fun R => Y s ell m R.1

/-- Functions with modes up to `L`. -/
noncomputable def Band (s L : Int) : Submodule ℂ (U → ℂ) := Submodule.span ℂ { F | ∃ ell m : Int, 0 ≤ ell ∧ ell ≤ L ∧ -ell ≤ m ∧ m ≤ ell ∧ F = YU s ell m }

theorem band_expansion {s L : Int} {F : U → ℂ} (h : F ∈ Band s L) : ∃ c, ∀ R : U, F R = expansion s L c R.1 := by
  unfold Band at h
  induction h using Submodule.span_induction with
  | mem x hx =>
    obtain ⟨ell, m, h1, h2, h3, h4, rfl⟩ := hx
    refine ⟨fun a b => if a = ell ∧ b = m then 1 else 0, fun R => ?_⟩
    unfold expansion
    rw [sum_eq_single ell, sum_eq_single m]
    · simp [YU]
    · intro b _ hb; simp [hb]
    · intro hb; exact absurd (Finset.mem_Icc.mpr ⟨h3, h4⟩) hb
    · intro a _ ha; simp [ha]
    · intro hb; exact absurd (Finset.mem_Icc.mpr ⟨h1, h2⟩) hb
  | zero => exact ⟨fun _ _ => 0, fun R => by simp [expansion]⟩
  | add x y _ _ hx hy =>
    obtain ⟨c, hc⟩ := hx
    obtain ⟨d, hd⟩ := hy
    refine ⟨fun a b => c a b + d a b, fun R => ?_⟩
    show x R + y R = _
    rw [hc, hd]
    simp only [expansion, ← sum_add_distrib, add_mul]
  | smul k x _ hx =>
    obtain ⟨c, hc⟩ := hx
    refine ⟨fun a b => k * c a b, fun R => ?_⟩
    show k * x R = _
    rw [hc]
    simp only [expansion, mul_sum, mul_assoc]

/-- The factor of a harmonic. -/
noncomputable def fac (s ell m : Int) : ℂ :=
  (-1) ^ s.natAbs * (√((2 * ell + 1) / (4 * Real.pi)) : ℝ) * ((nu (2 * ell).toNat (ell + -s).toNat / nu (2 * ell).toNat (ell + m).toNat : ℝ) : ℂ)

theorem fac_ne (s ell m : Int) (h : 0 ≤ ell) : fac s ell m ≠ 0 := by
  unfold fac
  have h1 : (√((2 * ell + 1) / (4 * Real.pi)) : ℝ) ≠ 0 := by
    have : (0 : ℝ) ≤ ell := by exact_mod_cast h
    positivity
  have h2 : (nu (2 * ell).toNat (ell + -s).toNat / nu (2 * ell).toNat (ell + m).toNat : ℝ) ≠ 0 := div_ne_zero (nu_pos _ _).ne' (nu_pos _ _).ne'
  refine mul_ne_zero (mul_ne_zero (by simp) ?_) ?_
  · exact_mod_cast h1
  · exact_mod_cast h2

theorem YU_eq {s ell m : Int} (h : |s| ≤ ell) (R : U) : YU s ell m R = fac s ell m * cf (2 * ell).toNat (ell + m).toNat (ell + -s).toNat (toSL R) := by
  unfold YU Y fac
  rw [if_pos h]
  exact (mul_assoc _ _ _).symm

/-- Combinations of matrix elements are functions with modes up to `L`. -/
theorem comb_band {s L m : Int} (h1 : |s| ≤ L) (h2 : -L ≤ m) (h3 : m ≤ L) (φ : SL → ℂ) (hφ : φ ∈ Comb (2 * L).toNat (L + m).toNat (L + -s).toNat) : (fun R => φ (toSL R)) ∈ Band s L := by
  rw [abs_le] at h1
  unfold Comb at hφ
  induction hφ using Submodule.span_induction with
  | mem x hx =>
    obtain ⟨k, rfl⟩ := hx
    unfold term
    split_ifs with hk
    · have hs : |s| ≤ L - k := by rw [abs_le]; omega
      have e : (fun R => cf ((2 * L).toNat - 2 * k) ((L + m).toNat - k) ((L + -s).toNat - k) (toSL R)) = (fac s (L - k) m)⁻¹ • YU s (L - k) m := by
        funext R
        show _ = (fac s (L - k) m)⁻¹ * YU s (L - k) m R
        rw [YU_eq hs, inv_mul_cancel_left₀ (fac_ne _ _ _ (by omega))]
        congr 1 <;> omega
      rw [e]
      exact Submodule.smul_mem _ _ (Submodule.subset_span ⟨L - k, m, by omega, by omega, by omega, by omega, rfl⟩)
    · exact Submodule.zero_mem _
  | zero => exact Submodule.zero_mem _
  | add x y _ _ hx hy => exact Submodule.add_mem _ hx hy
  | smul c x _ hx => exact Submodule.smul_mem _ c hx

theorem Band_mono {s L L' : Int} (h : L ≤ L') : Band s L ≤ Band s L' :=
  Submodule.span_mono fun _ ⟨ell, m, h1, h2, h3⟩ => ⟨ell, m, h1, by omega, h3⟩

/-- The product of two harmonics. -/
theorem YU_mul {s ell m s' ell' m' : Int} (h1 : -ell ≤ m) (h2 : m ≤ ell) (h1' : -ell' ≤ m') (h2' : m' ≤ ell') :
    YU s ell m * YU s' ell' m' ∈ Band (s + s') (ell + ell') := by
  by_cases hs : |s| ≤ ell
  · by_cases hs' : |s'| ≤ ell'
    · have e : YU s ell m * YU s' ell' m' = (fac s ell m * fac s' ell' m') • fun R => (cf (2 * ell).toNat (ell + m).toNat (ell + -s).toNat * cf (2 * ell').toNat (ell' + m').toNat (ell' + -s').toNat) (toSL R) := by
        funext R
        show YU s ell m R * YU s' ell' m' R = (fac s ell m * fac s' ell' m') * (cf _ _ _ (toSL R) * cf _ _ _ (toSL R))
        rw [YU_eq hs, YU_eq hs']
        ring
      rw [e]
      rw [abs_le] at hs hs'
      refine Submodule.smul_mem _ _ (comb_band (m := m + m') (by rw [abs_le]; omega) (by omega) (by omega) _ ?_)
      have := cf_mul_cf (2 * ell).toNat (ell + m).toNat (ell + -s).toNat (2 * ell').toNat (ell' + m').toNat (ell' + -s').toNat (by omega) (by omega)
      convert this using 1
      congr 1 <;> omega
    · have : YU s' ell' m' = 0 := by
        funext R
        exact if_neg hs'
      rw [this, mul_zero]
      exact Submodule.zero_mem _
  · have : YU s ell m = 0 := by
      funext R
      exact if_neg hs
    rw [this, zero_mul]
    exact Submodule.zero_mem _

/-- A function with modes up to `L` times another. -/
theorem expansion_mul (s s' L L' : Int) (c c' : Int → Int → ℂ) :
    ∃ d, ∀ R, Spec.Unit R → expansion s L c R * expansion s' L' c' R = expansion (s + s') (L + L') d R := by
  have : (fun R : U => expansion s L c R.1 * expansion s' L' c' R.1) ∈ Band (s + s') (L + L') := by
    have e : (fun R : U => expansion s L c R.1 * expansion s' L' c' R.1) =
        ∑ ell ∈ Icc 0 L, ∑ m ∈ Icc (-ell) ell, ∑ ell' ∈ Icc 0 L', ∑ m' ∈ Icc (-ell') ell', (c ell m * c' ell' m') • (YU s ell m * YU s' ell' m') := by
      funext R
      simp only [expansion, Finset.sum_apply, Pi.smul_apply, Pi.mul_apply, smul_eq_mul, YU]
      simp only [sum_mul]
      simp only [mul_sum]
      refine sum_congr rfl fun a _ => sum_congr rfl fun b _ => sum_congr rfl fun a' _ => sum_congr rfl fun b' _ => by ring
    rw [e]
    refine Submodule.sum_mem _ fun ell h => Submodule.sum_mem _ fun m hm => Submodule.sum_mem _ fun ell' h' => Submodule.sum_mem _ fun m' hm' => Submodule.smul_mem _ _ ?_
    rw [Finset.mem_Icc] at h hm h' hm'
    exact Band_mono (by omega) (YU_mul hm.1 hm.2 hm'.1 hm'.2)
  obtain ⟨d, hd⟩ := band_expansion this
  exact ⟨d, fun R hR => hd ⟨R, hR⟩⟩

end Verif.GridMultiply
