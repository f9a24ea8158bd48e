import Verif.Spec.ChargeCov
import Verif.Props.Charges
import Verif.Props.BoostFlux
import Verif.Lemmas.Balance

/-!
# Products, conjugates and vectors in rotated frames
-/

namespace Verif.ChargeCov
open Verif.Charges Verif.Spec.ChargeCov Verif.Spec.Rotation Verif.GridMultiply Verif.GridMultiply.Spec Verif.Sphere ComplexConjugate Verif.Spec.Charges
open Verif.Spec.Balance (IsProduct)
open Verif.AngMomCov (only expansion_only triple_rotated only_rotated rot_adjoint)
open Verif.AbdTransform (rotateVec)
open Verif.Props.BoostFlux (chiV)

theorem rot_add (l : Int) (Q : Quaternion ℝ) (f g : Int → ℂ) (m : Int) : rot l Q (fun n => f n + g n) m = rot l Q f m + rot l Q g m := by
  unfold rot
  rw [← Finset.sum_add_distrib]
  exact Finset.sum_congr rfl fun n _ => by ring

theorem expansion_of_rotated {L s : Int} {Q : Quaternion ℝ} {g f : Modes} (h : RotatedModes L s Q g f) (R : Quaternion ℝ) : expansion s L g R = expansion s L f (Q * R) := by
  rw [Props.GridModes.expansion_rotated]
  unfold expansion
  refine Finset.sum_congr rfl fun ell he => Finset.sum_congr rfl fun m hm => ?_
  rw [Finset.mem_Icc] at he hm
  by_cases hs : |s| ≤ ell
  · rw [h ell m hs he.2 (abs_le.2 hm)]
  · rw [Verif.SphereDeriv.Y_zero hs, mul_zero, mul_zero]

theorem expansion_cont (s L : Int) (f : Modes) : Cont (expansion s L f) :=
  Cont.sum fun ell _ => Cont.sum fun m hm => (Verif.Sphere.Y_cont s ell m (Finset.mem_Icc.1 hm).1 (Finset.mem_Icc.1 hm).2).smul _

/-- The product of rotated functions is the rotated product. -/
theorem mul_rotated {L : Int} {mul : Int → Int → Modes → Modes → Modes} (hmul : IsProduct L mul) (hL : 0 ≤ L) {Q : Quaternion ℝ} (hQ : UnitRotor Q) {s t : Int} {f' f g' g : Modes}
    (hf : RotatedModes L s Q f' f) (hg : RotatedModes L t Q g' g) (ell m : Int) (hs : |s + t| ≤ ell) (hm : |m| ≤ ell) : mul s t f' g' ell m = rot ell Q (mul s t f g ell) m := by
  have h0 : 0 ≤ ell := (abs_nonneg _).trans hs
  have hm' := abs_le.1 hm
  set e : Int → ℂ := Pi.single m 1 with he
  have h1 : mul s t f' g' ell m = sphere fun R => conj (expansion (s + t) ell (only ell e) R) * expansion s L f' R * expansion t L g' R := by
    rw [hmul s t f' g' ell m hs hm]
    show (sphere fun R => conj (Y (s + t) ell m R) * (expansion s L f' R * expansion t L g' R)) = _
    refine sphere_congr fun R _ => ?_
    rw [expansion_only _ _ h0, Finset.sum_eq_single_of_mem m (Finset.mem_Icc.2 hm')]
    · simp [he, mul_assoc]
    · intro n _ hn
      simp [he, hn]
  have h2 : ∀ R, expansion (s + t) ell (only ell e) R = expansion (s + t) ell (only ell (rot ell (star Q) e)) (Q * R) := by
    intro R
    rw [only_rotated _ _ h0, expansion_only _ _ h0, expansion_only _ _ h0]
    refine Finset.sum_congr rfl fun n hn => ?_
    rw [Finset.mem_Icc] at hn
    rw [Verif.Rotation.rot_rot ell (star Q) Q _ n hn, Verif.Rotation.unit_left hQ, Verif.Rotation.rot_one ell _ n hn]
  rw [h1]
  simp only [h2, expansion_of_rotated hf, expansion_of_rotated hg]
  rw [triple_rotated (s + t) s t ell L L _ f g (by ring) (by omega) Q hQ]
  have h3 : (sphere fun R => conj (expansion (s + t) ell (only ell (rot ell (star Q) e)) R) * expansion s L f R * expansion t L g R) =
      ∑ n ∈ Finset.Icc (-ell) ell, conj (rot ell (star Q) e n) * mul s t f g ell n := by
    have h4 : (fun R => conj (expansion (s + t) ell (only ell (rot ell (star Q) e)) R) * expansion s L f R * expansion t L g R) =
        fun R => ∑ n ∈ Finset.Icc (-ell) ell, conj (rot ell (star Q) e n) * (conj (Y (s + t) ell n R) * (expansion s L f R * expansion t L g R)) := by
      funext R
      rw [expansion_only _ _ h0, map_sum, Finset.sum_mul, Finset.sum_mul]
      refine Finset.sum_congr rfl fun n _ => ?_
      rw [map_mul]
      ring
    rw [h4, sphere_sum]
    · refine Finset.sum_congr rfl fun n hn => ?_
      rw [Finset.mem_Icc] at hn
      rw [sphere_smul, hmul s t f g ell n hs (abs_le.2 hn)]
      rfl
    · intro n hn
      rw [Finset.mem_Icc] at hn
      exact ((Verif.Sphere.Y_cont (s + t) ell n hn.1 hn.2).conj.mul ((expansion_cont s L f).mul (expansion_cont t L g))).smul _
  rw [h3, rot_adjoint, star_star, Finset.sum_eq_single_of_mem m (Finset.mem_Icc.2 hm')]
  · simp [he]
  · intro n _ hn
    simp [he, hn]

theorem sign_sq (k : Nat) : ((-1 : ℂ)) ^ k * (-1) ^ k = 1 := by
  rw [← mul_pow]
  simp

/-- The conjugate of a rotated function is the rotated conjugate. -/
theorem bar_rot (s ell : Int) (Q : Quaternion ℝ) (f : Modes) (m : Int) (hm : |m| ≤ ell) : bar s (fun ell => rot ell Q (f ell)) ell m = rot ell Q (bar s f ell) m := by
  have hm' := abs_le.1 hm
  unfold bar rot
  rw [map_sum, Finset.mul_sum]
  refine Finset.sum_bij' (fun n _ => -n) (fun n _ => -n) ?_ ?_ ?_ ?_ ?_
  · intro n hn
    rw [Finset.mem_Icc] at hn ⊢
    omega
  · intro n hn
    rw [Finset.mem_Icc] at hn ⊢
    omega
  · intro n _
    exact neg_neg n
  · intro n _
    exact neg_neg n
  · intro n hn
    rw [Finset.mem_Icc] at hn
    rw [map_mul, Verif.Wigner.Dlm_conj ell Q n (-m) (abs_le.2 hn) (by rwa [abs_neg]), neg_neg]
    simp only [neg_neg]
    have key : ((-1 : ℂ)) ^ (s + m).natAbs * (-1) ^ (n + -m).natAbs = (-1) ^ (s + -n).natAbs := by
      rw [← pow_add]
      refine neg_one_pow_congr ?_
      simp only [Nat.even_add, Int.natAbs_even, Int.even_add, even_neg]
      tauto
    rw [← key]
    ring

theorem bar_rotated {L s : Int} {Q : Quaternion ℝ} {g f : Modes} (h : RotatedModes L s Q g f) : RotatedModes L (-s) Q (bar s g) (bar s f) := by
  intro ell m hs hl hm
  rw [abs_neg] at hs
  rw [← bar_rot s ell Q f m hm]
  unfold bar
  rw [h ell (-m) hs hl (by rwa [abs_neg])]

theorem eth_rotated {L s : Int} {Q : Quaternion ℝ} {g f : Modes} (h : RotatedModes L s Q g f) : RotatedModes L (s + 1) Q (ethGHP s g) (ethGHP s f) := by
  intro ell m hs hl hm
  by_cases h0 : |s| ≤ ell
  · unfold ethGHP
    rw [h ell m h0 hl hm, Verif.Props.BoostFlux.rot_smul]
  · have e : √((((ell - s) * (ell + s + 1) : Int) : ℝ) / 2) = 0 := by
      refine Real.sqrt_eq_zero_of_nonpos ?_
      have : (ell - s) * (ell + s + 1) ≤ 0 := by
        rcases abs_cases s with ⟨h1, h2⟩ | ⟨h1, h2⟩ <;> rcases abs_cases (s + 1) with ⟨h3, h4⟩ | ⟨h3, h4⟩
        · omega
        · omega
        · exact mul_nonpos_of_nonneg_of_nonpos (by omega) (by omega)
        · exact mul_nonpos_of_nonneg_of_nonpos (by omega) (by omega)
      have h2 : (((ell - s) * (ell + s + 1) : Int) : ℝ) ≤ 0 := by exact_mod_cast this
      linarith
    unfold ethGHP
    rw [Verif.Props.BoostFlux.rot_smul, e]
    simp

theorem ethbar_rotated {L s : Int} {Q : Quaternion ℝ} {g f : Modes} (h : RotatedModes L s Q g f) : RotatedModes L (s - 1) Q (ethbarGHP s g) (ethbarGHP s f) := by
  intro ell m hs hl hm
  by_cases h0 : |s| ≤ ell
  · unfold ethbarGHP
    rw [h ell m h0 hl hm, Verif.Props.BoostFlux.rot_smul]
  · have e : √((((ell + s) * (ell - s + 1) : Int) : ℝ) / 2) = 0 := by
      refine Real.sqrt_eq_zero_of_nonpos ?_
      have : (ell + s) * (ell - s + 1) ≤ 0 := by
        rcases abs_cases s with ⟨h1, h2⟩ | ⟨h1, h2⟩ <;> rcases abs_cases (s - 1) with ⟨h3, h4⟩ | ⟨h3, h4⟩
        · exact mul_nonpos_of_nonneg_of_nonpos (by omega) (by omega)
        · omega
        · omega
        · omega
      have h2 : (((ell + s) * (ell - s + 1) : Int) : ℝ) ≤ 0 := by exact_mod_cast this
      linarith
    unfold ethbarGHP
    rw [Verif.Props.BoostFlux.rot_smul, e]
    simp

/-- The vector of a rotated aspect. -/
theorem vector_rotated {Q : Quaternion ℝ} (hQ : UnitRotor Q) {g f : Modes} (h : ∀ m, |m| ≤ 1 → g 1 m = rot 1 Q (f 1) m) (i : Fin 3) :
    vector g i.succ = rotateVec (star Q) (fun i => vector f i.succ) i := by
  have hv : ∀ (v : Fin 3 → ℝ) (f : Modes), ∑ i, v i * vector f i.succ = (∑ n ∈ Finset.Icc (-1 : Int) 1, conj (chiV v 1 n) * f 1 n).re / (4 * Real.pi) := by
    intro v f
    simp only [Verif.Balance.vec_chi, Verif.Balance.pair, chiV]
    rw [show Finset.Icc (-1 : Int) 1 = {-1, 0, 1} by decide, Finset.sum_insert (by decide), Finset.sum_insert (by decide), Finset.sum_singleton]
    simp only [Fin.sum_univ_three, map_add, map_mul, Complex.conj_ofReal, Complex.add_re, Complex.mul_re, Complex.add_im, Complex.mul_im, Complex.ofReal_re, Complex.ofReal_im]
    ring
  have key : ∀ v : Fin 3 → ℝ, ∑ i, v i * vector g i.succ = ∑ i, v i * rotateVec (star Q) (fun i => vector f i.succ) i := by
    intro v
    rw [← Verif.Props.FluxCovariance.rotateVec_adjoint, hv, hv]
    congr 2
    have e1 : ∑ n ∈ Finset.Icc (-1 : Int) 1, conj (chiV v 1 n) * g 1 n = ∑ n ∈ Finset.Icc (-1 : Int) 1, conj (rot 1 Q (chiV (rotateVec Q v) 1) n) * g 1 n := by
      refine Finset.sum_congr rfl fun n hn => ?_
      rw [Finset.mem_Icc] at hn
      rw [Verif.Props.BoostFlux.chiV_rotated hQ v n hn.1 hn.2]
    rw [e1, rot_adjoint]
    refine Finset.sum_congr rfl fun n hn => ?_
    rw [Finset.mem_Icc] at hn
    congr 1
    have e2 : rot 1 (star Q) (g 1) n = rot 1 (star Q) (rot 1 Q (f 1)) n := Verif.Rotation.rot_congr 1 _ _ _ n fun k hk => h k (abs_le.2 hk)
    rw [e2, Verif.Rotation.rot_rot 1 Q (star Q) _ n hn, Verif.Rotation.unit_right hQ, Verif.Rotation.rot_one 1 _ n hn]
  have := key (Pi.single i 1)
  simpa [Pi.single_apply] using this

theorem Dlm_zero (Q : Quaternion ℝ) : Wigner.Dlm 0 Q 0 0 = 1 := by
  unfold Wigner.Dlm
  simp [Wigner.D, Wigner.coef, Wigner.nu]

theorem vector_rotated_zero {Q : Quaternion ℝ} {g f : Modes} (h : g 0 0 = rot 0 Q (f 0) 0) : vector g 0 = vector f 0 := by
  rw [Verif.Balance.vec_zero, Verif.Balance.vec_zero, h]
  unfold rot
  rw [show Finset.Icc (-(0 : Int)) 0 = {0} by decide, Finset.sum_singleton, Dlm_zero, mul_one]

end Verif.ChargeCov
