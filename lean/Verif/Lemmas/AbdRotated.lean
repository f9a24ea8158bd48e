import Verif.Props.AbdModes
import Verif.Props.ChargeCov
import Verif.Props.BoostFlux

/-!
# A transformation of rotated data: the grid and what is evaluated on it
-/

namespace Verif.Lemmas.AbdRotated

open Verif Verif.Modes Verif.AbdModes Verif.AbdModes.Spec Verif.TransformKwargs Verif.AbdTransform
open Verif.GridModes (vec3 vDotR zhat)
open Verif.GridModes.Spec (dir superModes)
open Verif.GridMultiply (Y rect)
open Verif.GridMultiply.Spec (expansion)
open Verif.Spec.Rotation (rot UnitRotor)
open Verif.Props.FluxCovariance (star_mul_unit mul_star_unit dir_rotated)
open Verif.Props.AbdTransform (rotateVec_mul vecQuat_rotateVec)
open Verif.Props.BoostFlux (chiV chiV_eq chiV_rotated rot_smul)

theorem unit_normSq {Q : Quaternion ℝ} (hQ : UnitRotor Q) : Quaternion.normSq Q = 1 := hQ

theorem sum_rotated {Q : Quaternion ℝ} (hQ : UnitRotor Q) (v w : Fin 3 → ℝ) : ∑ i, rotateVec Q v i * rotateVec Q w i = ∑ i, v i * w i :=
  Verif.Lemmas.Bms.rotateVec_dot Q (unit_normSq hQ) v w

theorem vabs_rotated {Q : Quaternion ℝ} (hQ : UnitRotor Q) (v : Fin 3 → ℝ) : vabs (rotateVec Q v) = vabs v := by
  have h := sum_rotated hQ v v
  rw [Fin.sum_univ_three, Fin.sum_univ_three] at h
  unfold vabs
  congr 1
  linear_combination h

theorem div_rotated (Q : Quaternion ℝ) (v : Fin 3 → ℝ) (k : ℝ) : (fun i => rotateVec Q v i / k) = rotateVec Q fun i => v i / k := by
  have h := Verif.Lemmas.Bms.rotateVec_smul Q k⁻¹ v
  have e : (fun i => v i / k) = k⁻¹ • v := by
    funext i
    rw [Pi.smul_apply, smul_eq_mul, div_eq_mul_inv, mul_comm]
  rw [e, h]
  funext i
  rw [Pi.smul_apply, smul_eq_mul, div_eq_mul_inv, mul_comm]

theorem expRotor_eq (n : Fin 3 → ℝ) (x : ℝ) : expRotor n x = ((Real.cos x : ℝ) : Quaternion ℝ) + ((Real.sin x : ℝ) : Quaternion ℝ) * vecQuat n := by
  have v0 : (vecQuat n).re = 0 := rfl
  have v1 : (vecQuat n).imI = n 0 := rfl
  have v2 : (vecQuat n).imJ = n 1 := rfl
  have v3 : (vecQuat n).imK = n 2 := rfl
  have e0 : (expRotor n x).re = Real.cos x := rfl
  have e1 : (expRotor n x).imI = Real.sin x * n 0 := rfl
  have e2 : (expRotor n x).imJ = Real.sin x * n 1 := rfl
  have e3 : (expRotor n x).imK = Real.sin x * n 2 := rfl
  refine Quaternion.ext _ _ ?_ ?_ ?_ ?_ <;> simp [e0, e1, e2, e3, v0, v1, v2, v3]

theorem expRotor_rotated {Q : Quaternion ℝ} (hQ : UnitRotor Q) (n : Fin 3 → ℝ) (x : ℝ) : expRotor (rotateVec Q n) x = Q * expRotor n x * star Q := by
  rw [expRotor_eq, expRotor_eq, vecQuat_rotateVec, mul_add, add_mul, ← (Quaternion.coe_commutes (Real.cos x) Q), mul_assoc _ Q (star Q), mul_star_unit hQ, mul_one, ← mul_assoc Q, ← (Quaternion.coe_commutes (Real.sin x) Q)]
  simp only [mul_assoc]

/-- The rotor of the distortion is that of the rotated direction and velocity, rotated back. -/
theorem Bprm_rotated {Q : Quaternion ℝ} (hQ : UnitRotor Q) (beta : ℝ) (v r : Fin 3 → ℝ) : Bprm beta (rotateVec Q v) (rotateVec Q r) = Q * Bprm beta v r * star Q := by
  unfold Bprm
  have hc : cross (rotateVec Q r) (rotateVec Q v) = rotateVec Q (cross r v) := Verif.Props.ChargeCov.cross_rotated hQ r v
  simp only [sum_rotated hQ, hc, vabs_rotated hQ, div_rotated, expRotor_rotated hQ]
  split_ifs
  · rfl
  · rw [mul_one, mul_star_unit hQ]
  · rw [mul_one, mul_star_unit hQ]

theorem expansion_congr_spin {s L : Int} {f g : Int → Int → ℂ} (h : ∀ ell m : Int, |s| ≤ ell → ell ≤ L → -ell ≤ m → m ≤ ell → f ell m = g ell m) (R : Quaternion ℝ) : expansion s L f R = expansion s L g R := by
  unfold expansion
  refine Finset.sum_congr rfl fun ell h1 => Finset.sum_congr rfl fun m h2 => ?_
  rw [Finset.mem_Icc] at h1 h2
  by_cases hs : |s| ≤ ell
  · rw [h ell m hs h1.2 h2.1 h2.2]
  · rw [Verif.SphereDeriv.Y_zero hs, mul_zero, mul_zero]

/-- An expansion whose modes are rotated has the same values, in the rotated directions. -/
theorem expansion_turned {s L : Int} {f g : Int → Int → ℂ} {Q : Quaternion ℝ} (h : ∀ ell m : Int, |s| ≤ ell → ell ≤ L → -ell ≤ m → m ≤ ell → g ell m = rot ell Q (f ell) m) (R : Quaternion ℝ) :
    expansion s L f (Q * R) = expansion s L g R := by
  rw [Verif.Props.GridModes.expansion_rotated]
  exact expansion_congr_spin (fun ell m h1 h2 h3 h4 => (h ell m h1 h2 h3 h4).symm) R

theorem vDotR_turned {Q : Quaternion ℝ} (hQ : UnitRotor Q) (v : Fin 3 → ℝ) (R : Quaternion ℝ) : expansion 1 1 (vDotR (rotateVec Q v)) (Q * R) = expansion 1 1 (vDotR v) R := by
  refine expansion_turned (fun ell m h1 h2 h3 h4 => ?_) R
  have e : ell = 1 := le_antisymm h2 (by simpa using h1)
  subst e
  rw [← chiV_eq v m h3 h4, chiV_rotated hQ v m h3 h4]
  exact Verif.Rotation.rot_congr 1 Q _ _ m fun n hn => chiV_eq _ n hn.1 hn.2

theorem rot_degree_zero (Q : Quaternion ℝ) (f : Int → ℂ) : rot 0 Q f 0 = f 0 := by
  unfold rot
  rw [show Finset.Icc (-(0 : Int)) 0 = {0} by decide, Finset.sum_singleton, Verif.ChargeCov.Dlm_zero, mul_one]

end Verif.Lemmas.AbdRotated
