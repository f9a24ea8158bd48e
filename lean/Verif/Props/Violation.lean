import Verif.Model.Violation
import Verif.Props.Parity
import Verif.Props.Norm
import Verif.Props.Modes
import Verif.Lemmas.ModeCalc
import Verif.Lemmas.Rotation
import Verif.Lemmas.WignerConj
import Mathlib.Algebra.BigOperators.Field

/-!
# C84: the measures of parity violation
-/

namespace Verif.Props.Violation
open Verif Verif.Modes Verif.Parity Verif.Violation Verif.Spec.Parity Verif.Props.Parity ComplexConjugate
open Finset (Icc)

/-! ## Specification -/

/-- The squared norm of the modes `f` with degrees from `a` to `b`. -/
noncomputable def total (a b : Int) (f : Int → Int → ℂ) : ℝ := ∑ ell ∈ Icc a b, ∑ m ∈ Icc (-ell) ell, ‖f ell m‖ ^ 2

/-! ## Proofs -/

theorem rowList_eq (W : Wave) (h0 : 0 ≤ W.ellMin) : rowList W = (LMRange W.ellMin W.ellMax).map fun p => mode W p.1 p.2 := by
  apply List.ext_getElem?
  intro i
  unfold rowList Wave.nModes
  rw [List.getElem?_map, List.getElem?_map]
  by_cases h : i < (LMRange W.ellMin W.ellMax).length
  · rw [List.getElem?_range h, List.getElem?_eq_getElem h]
    have := Verif.Props.Modes.index_LM W.ellMin W.ellMax h0 i _ _ (List.getElem?_eq_getElem h)
    show some (W.row i) = some (W.row (lmIndex _ _ W.ellMin))
    exact congrArg (fun k => some (W.row k)) this.symm
  · rw [List.getElem?_eq_none (by simpa using h), List.getElem?_eq_none (by simpa using h)]
    rfl

theorem norm_eq (W : Wave) (h0 : 0 ≤ W.ellMin) : Violation.norm W = total W.ellMin W.ellMax (mode W) := by
  unfold Violation.norm
  have h : ∀ (l : List ℂ) (s : ℝ), l.foldl (fun s z => s + (z.re ^ 2 + z.im ^ 2)) s = s + (l.map fun z => ‖z‖ ^ 2).sum := by
    intro l
    induction l with
    | nil => intro s; simp
    | cons z l ih =>
      intro s
      rw [List.foldl_cons, ih, List.map_cons, List.sum_cons, Complex.sq_norm, Complex.normSq_apply]
      ring
  rw [Norm.rowNorm, h, zero_add, rowList_eq W h0, List.map_map]
  exact ModeCalc.sum_LMRange W.ellMin W.ellMax fun ell m => ‖mode W ell m‖ ^ 2

theorem total_congr {a b : Int} {f g : Int → Int → ℂ} (h : ∀ ell m, a ≤ ell → ell ≤ b → |m| ≤ ell → ‖f ell m‖ = ‖g ell m‖) : total a b f = total a b g := by
  unfold total
  refine Finset.sum_congr rfl fun ell hell => Finset.sum_congr rfl fun m hm => ?_
  rw [Finset.mem_Icc] at hell hm
  rw [h ell m hell.1 hell.2 (abs_le.mpr hm)]

theorem total_neg (a b : Int) (f : Int → Int → ℂ) : total a b (fun ell m => f ell (-m)) = total a b f := by
  unfold total
  refine Finset.sum_congr rfl fun ell _ => ?_
  refine Finset.sum_nbij' (fun m => -m) (fun m => -m) ?_ ?_ ?_ ?_ ?_
  · intro m hm; rw [Finset.mem_Icc] at *; omega
  · intro m hm; rw [Finset.mem_Icc] at *; omega
  · intro m _; exact neg_neg m
  · intro m _; exact neg_neg m
  · intro m _; rfl

theorem norm_sgn (n : Int) : ‖sgn n‖ = 1 := by
  unfold sgn; split <;> simp

/-- A reflection keeps the norm. -/
theorem total_reflected (ax : Axis) (W : Wave) : total W.ellMin W.ellMax (reflected ax W) = total W.ellMin W.ellMax (mode W) := by
  cases ax with
  | x => exact total_congr fun ell m _ _ _ => by simp [reflected, norm_sgn]
  | y => exact total_congr fun ell m _ _ _ => by simp [reflected]
  | z =>
    rw [← total_neg _ _ (mode W)]
    exact total_congr fun ell m _ _ _ => by simp [reflected, norm_sgn]
  | all =>
    rw [← total_neg _ _ (mode W)]
    exact total_congr fun ell m _ _ _ => by simp [reflected, norm_sgn]

theorem total_parallelogram (a b : Int) (f g : Int → Int → ℂ) :
    total a b (fun ell m => (f ell m + g ell m) / 2) + total a b (fun ell m => (f ell m - g ell m) / 2) = (total a b f + total a b g) / 2 := by
  unfold total
  rw [← Finset.sum_add_distrib, ← Finset.sum_add_distrib, Finset.sum_div]
  refine Finset.sum_congr rfl fun ell _ => ?_
  rw [← Finset.sum_add_distrib, ← Finset.sum_add_distrib, Finset.sum_div]
  refine Finset.sum_congr rfl fun m _ => ?_
  show ‖(f ell m + g ell m) / 2‖ ^ 2 + ‖(f ell m - g ell m) / 2‖ ^ 2 = _
  simp only [Complex.sq_norm, Complex.normSq_apply, Complex.div_ofNat_re, Complex.div_ofNat_im, Complex.add_re, Complex.add_im, Complex.sub_re, Complex.sub_im]
  ring

theorem total_nonneg (a b : Int) (f : Int → Int → ℂ) : 0 ≤ total a b f := Finset.sum_nonneg fun _ _ => Finset.sum_nonneg fun _ _ => by positivity

theorem total_eq_zero (a b : Int) (f : Int → Int → ℂ) : total a b f = 0 ↔ ∀ ell m, a ≤ ell → ell ≤ b → |m| ≤ ell → f ell m = 0 := by
  unfold total
  rw [Finset.sum_eq_zero_iff_of_nonneg fun _ _ => Finset.sum_nonneg fun _ _ => by positivity]
  constructor
  · intro h ell m h1 h2 h3
    have := (Finset.sum_eq_zero_iff_of_nonneg fun _ _ => by positivity).mp (h ell (Finset.mem_Icc.mpr ⟨h1, h2⟩)) m (Finset.mem_Icc.mpr (abs_le.mp h3))
    simpa using this
  · intro h ell hell
    rw [Finset.mem_Icc] at hell
    refine Finset.sum_eq_zero fun m hm => ?_
    rw [Finset.mem_Icc] at hm
    rw [h ell m hell.1 hell.2 (abs_le.mpr hm)]
    simp

/-- C84.  The squared violation is the squared norm of half the difference between the data and their reflection. -/
theorem violation_squared_spec (ax : Axis) (g : Row ℂ) (W : Wave) (h0 : 0 ≤ W.ellMin) (hk : W.known = true) (hn : 2 ≤ W.nModes) :
    violationSquared ax g W = .ok (total W.ellMin W.ellMax fun ell m => (mode W ell m - reflected ax W ell m) / 2) := by
  obtain ⟨A, hA, -, -, a3, a4, -, a6⟩ := antisymmetricPart_spec ax g W h0 hk hn
  unfold violationSquared
  rw [hA, ok_bind, norm_eq A (by rw [a3]; exact h0), a3, a4]
  refine congrArg Except.ok (total_congr fun ell m h1 h2 h3 => ?_)
  rw [a6 ell m ⟨h1, h2, h3⟩]

/-- C84.  The squared norms of the symmetric and of the antisymmetric part add up to that of the data. -/
theorem pythagoras (ax : Axis) (g : Row ℂ) (W : Wave) (h0 : 0 ≤ W.ellMin) (hk : W.known = true) (hn : 2 ≤ W.nModes) :
    ∃ S v, symmetricPart ax g W = .ok S ∧ violationSquared ax g W = .ok v ∧ Violation.norm S + v = Violation.norm W ∧ 0 ≤ v ∧ v ≤ Violation.norm W := by
  obtain ⟨S, hS, -, -, s3, s4, -, s6⟩ := symmetricPart_spec ax g W h0 hk hn
  have e : Violation.norm S = total W.ellMin W.ellMax fun ell m => (mode W ell m + reflected ax W ell m) / 2 := by
    rw [norm_eq S (by rw [s3]; exact h0), s3, s4]
    refine total_congr fun ell m h1 h2 h3 => ?_
    rw [s6 ell m ⟨h1, h2, h3⟩]
  have hp := total_parallelogram W.ellMin W.ellMax (mode W) (reflected ax W)
  rw [total_reflected, ← norm_eq W h0, ← e] at hp
  have h1 : 0 ≤ Violation.norm S := by rw [e]; exact total_nonneg _ _ _
  refine ⟨S, _, hS, violation_squared_spec ax g W h0 hk hn, by linarith, total_nonneg _ _ _, by linarith⟩

theorem normalized_eq (ax : Axis) (g : Row ℂ) (W : Wave) (h0 : 0 ≤ W.ellMin) (hk : W.known = true) (hn : 2 ≤ W.nModes) :
    violationNormalized ax g W = .ok (if Violation.norm W = 0 then none else
      some (Real.sqrt (total W.ellMin W.ellMax (fun ell m => (mode W ell m - reflected ax W ell m) / 2) / Violation.norm W))) := by
  obtain ⟨A, hA, -, -, a3, a4, -, a6⟩ := antisymmetricPart_spec ax g W h0 hk hn
  have e : Violation.norm A = total W.ellMin W.ellMax fun ell m => (mode W ell m - reflected ax W ell m) / 2 := by
    rw [norm_eq A (by rw [a3]; exact h0), a3, a4]
    exact total_congr fun ell m h1 h2 h3 => by rw [a6 ell m ⟨h1, h2, h3⟩]
  unfold violationNormalized
  rw [hA, ok_bind, e]
  rfl

/-- C84.  The normalised violation is nan exactly for data that are 0; otherwise it is between 0 and 1, it is 0 exactly for data that the reflection leaves as they are, and 1 exactly for data whose sign it
changes. -/
theorem normalized_spec (ax : Axis) (g : Row ℂ) (W : Wave) (h0 : 0 ≤ W.ellMin) (hk : W.known = true) (hn : 2 ≤ W.nModes) :
    ∃ r, violationNormalized ax g W = .ok r ∧ (r = none ↔ ∀ ell m, HasMode W ell m → mode W ell m = 0) ∧
      ∀ v, r = some v → 0 ≤ v ∧ v ≤ 1 ∧ (v = 0 ↔ ∀ ell m, HasMode W ell m → reflected ax W ell m = mode W ell m) ∧
        (v = 1 ↔ ∀ ell m, HasMode W ell m → reflected ax W ell m = -mode W ell m) := by
  refine ⟨_, normalized_eq ax g W h0 hk hn, ?_, ?_⟩
  · have : Violation.norm W = 0 ↔ ∀ ell m, HasMode W ell m → mode W ell m = 0 := by
      rw [norm_eq W h0, total_eq_zero]
      exact ⟨fun h ell m hm => h ell m hm.1 hm.2.1 hm.2.2, fun h ell m h1 h2 h3 => h ell m ⟨h1, h2, h3⟩⟩
    rw [← this]
    by_cases c : Violation.norm W = 0 <;> simp [c]
  · intro v hv
    by_cases c : Violation.norm W = 0
    · rw [if_pos c] at hv; cases hv
    · rw [if_neg c] at hv
      injection hv with hv
      have hp := total_parallelogram W.ellMin W.ellMax (mode W) (reflected ax W)
      rw [total_reflected, ← norm_eq W h0] at hp
      have hN : 0 < Violation.norm W := lt_of_le_of_ne (by rw [norm_eq W h0]; exact total_nonneg _ _ _) (Ne.symm c)
      have hA := total_nonneg W.ellMin W.ellMax fun ell m => (mode W ell m - reflected ax W ell m) / 2
      have hS := total_nonneg W.ellMin W.ellMax fun ell m => (mode W ell m + reflected ax W ell m) / 2
      subst hv
      refine ⟨Real.sqrt_nonneg _, ?_, ?_, ?_⟩
      · rw [Real.sqrt_le_iff, one_pow, div_le_one hN]; exact ⟨zero_le_one, by linarith⟩
      · rw [Real.sqrt_eq_zero (div_nonneg hA hN.le), div_eq_zero_iff, or_iff_left c, total_eq_zero]
        constructor
        · intro h ell m hm
          have := h ell m hm.1 hm.2.1 hm.2.2
          linear_combination -2 * this
        · intro h ell m h1 h2 h3
          rw [h ell m ⟨h1, h2, h3⟩]; ring
      · rw [Real.sqrt_eq_one, div_eq_one_iff_eq c]
        have : total W.ellMin W.ellMax (fun ell m => (mode W ell m - reflected ax W ell m) / 2) = Violation.norm W ↔ total W.ellMin W.ellMax (fun ell m => (mode W ell m + reflected ax W ell m) / 2) = 0 := by
          constructor <;> intro h <;> linarith
        rw [this, total_eq_zero]
        constructor
        · intro h ell m hm
          have := h ell m hm.1 hm.2.1 hm.2.2
          linear_combination 2 * this
        · intro h ell m h1 h2 h3
          rw [h ell m ⟨h1, h2, h3⟩]; ring

/-- C84.  Data of an unknown type and data with one mode are rejected. -/
theorem violation_rejected (ax : Axis) (g : Row ℂ) (W : Wave) (h : W.known = false ∨ W.nModes < 2) :
    violationSquared ax g W = .error .valueError ∧ violationNormalized ax g W = .error .valueError := by
  have e : conjugate ax g W = .error .valueError := by
    unfold conjugate
    by_cases c : W.known = false
    · rw [if_pos c]
    · rw [if_neg c, if_pos (by rcases h with h | h; exact absurd h c; omega)]
  have e' : antisymmetricPart ax g W = .error .valueError := by unfold antisymmetricPart; rw [e, error_bind]
  unfold violationSquared violationNormalized
  rw [e', error_bind, error_bind]
  exact ⟨rfl, rfl⟩

/-! ## Rotations -/

theorem sgn_pow (n : Int) : sgn n = (-1) ^ n.natAbs := by
  unfold sgn
  by_cases h : Even n
  · rw [if_pos h, Even.neg_one_pow (Int.natAbs_even.mpr h)]
  · rw [if_neg h, Odd.neg_one_pow]
    rw [← Nat.not_even_iff_odd, Int.natAbs_even]; exact h

/-- The inversion of the rotated modes is the rotation of the inverted modes. -/
theorem inversion_rotated (W W' : Wave) (hs : W'.spin = W.spin) (ell : Int) (R : Quaternion ℝ) (h : ∀ m, |m| ≤ ell → mode W' ell m = Spec.Rotation.rot ell R (mode W ell) m) (m : Int) (hm : |m| ≤ ell) :
    reflected .all W' ell m = Spec.Rotation.rot ell R (reflected .all W ell) m := by
  unfold reflected
  simp only [hs]
  rw [h (-m) (by rwa [abs_neg])]
  unfold Spec.Rotation.rot
  rw [map_sum, Finset.mul_sum]
  refine Finset.sum_nbij' (fun k => -k) (fun k => -k) ?_ ?_ ?_ ?_ ?_
  · intro k hk; rw [Finset.mem_Icc] at *; omega
  · intro k hk; rw [Finset.mem_Icc] at *; omega
  · intro k _; exact neg_neg k
  · intro k _; exact neg_neg k
  · intro k hk
    rw [Finset.mem_Icc] at hk
    rw [map_mul, Wigner.Dlm_conj ell R k (-m) (abs_le.mpr hk) (by rwa [abs_neg]), neg_neg, ← sgn_pow]
    show _ = sgn (ell + W.spin + -k) * conj (mode W ell (- -k)) * _
    rw [neg_neg, sgn_add k (-m), sgn_neg, sgn_add (ell + W.spin) m, sgn_add (ell + W.spin) (-k), sgn_neg]
    linear_combination (sgn (ell + W.spin) * sgn k * conj (mode W ell k) * Wigner.Dlm ell R (-k) m) * sgn_mul_self m

theorem rot_comb (ell : Int) (R : Quaternion ℝ) (f g : Int → ℂ) (m : Int) :
    (Spec.Rotation.rot ell R f m - Spec.Rotation.rot ell R g m) / 2 = Spec.Rotation.rot ell R (fun k => (f k - g k) / 2) m := by
  unfold Spec.Rotation.rot
  rw [← Finset.sum_sub_distrib, Finset.sum_div]
  exact Finset.sum_congr rfl fun k _ => by ring

theorem total_rot (a b : Int) (R : Quaternion ℝ) (hR : Spec.Rotation.UnitRotor R) (f : Int → Int → ℂ) : total a b (fun ell m => Spec.Rotation.rot ell R (f ell) m) = total a b f := by
  unfold total
  refine Finset.sum_congr rfl fun ell _ => ?_
  have := Rotation.rot_power ell R hR (f ell)
  unfold Spec.Rotation.power at this
  simpa only [Complex.sq_norm] using this

/-- C84.  The violation under inversion does not depend on the orientation of the frame. -/
theorem inversion_invariant (g g' : Row ℂ) (W W' : Wave) (h0 : 0 ≤ W.ellMin) (hk : W.known = true) (hn : 2 ≤ W.nModes) (h1 : W'.known = W.known) (h2 : W'.spin = W.spin) (h3 : W'.ellMin = W.ellMin)
    (h4 : W'.ellMax = W.ellMax) (R : Quaternion ℝ) (hR : Spec.Rotation.UnitRotor R) (h : ∀ ell m, HasMode W ell m → mode W' ell m = Spec.Rotation.rot ell R (mode W ell) m) :
    violationSquared .all g' W' = violationSquared .all g W ∧ violationNormalized .all g' W' = violationNormalized .all g W := by
  have hn' : 2 ≤ W'.nModes := by rw [nModes_congr h3 h4]; exact hn
  have eA : total W'.ellMin W'.ellMax (fun ell m => (mode W' ell m - reflected .all W' ell m) / 2) = total W.ellMin W.ellMax fun ell m => (mode W ell m - reflected .all W ell m) / 2 := by
    rw [h3, h4, ← total_rot W.ellMin W.ellMax R hR fun ell m => (mode W ell m - reflected .all W ell m) / 2]
    refine total_congr fun ell m a1 a2 a3 => ?_
    rw [inversion_rotated W W' h2 ell R (fun k hk => h ell k ⟨a1, a2, hk⟩) m a3, h ell m ⟨a1, a2, a3⟩, rot_comb]
  have eN : Violation.norm W' = Violation.norm W := by
    rw [norm_eq W h0, norm_eq W' (by rw [h3]; exact h0), h3, h4, ← total_rot W.ellMin W.ellMax R hR (mode W)]
    exact total_congr fun ell m a1 a2 a3 => by rw [h ell m ⟨a1, a2, a3⟩]
  rw [violation_squared_spec .all g W h0 hk hn, violation_squared_spec .all g' W' (by rw [h3]; exact h0) (h1.trans hk) hn', normalized_eq .all g W h0 hk hn,
    normalized_eq .all g' W' (by rw [h3]; exact h0) (h1.trans hk) hn', eA, eN]
  exact ⟨rfl, rfl⟩

/-- C84.  The violation under reflection along `z` does not change in a rotation about `z`. -/
theorem z_invariant (g g' : Row ℂ) (W W' : Wave) (h0 : 0 ≤ W.ellMin) (hk : W.known = true) (hn : 2 ≤ W.nModes) (h1 : W'.known = W.known) (h2 : W'.spin = W.spin) (h3 : W'.ellMin = W.ellMin)
    (h4 : W'.ellMax = W.ellMax) (φ : ℝ) (h : ∀ ell m, HasMode W ell m → mode W' ell m = Complex.exp ((m * φ : ℝ) * Complex.I) * mode W ell m) :
    violationSquared .z g' W' = violationSquared .z g W ∧ violationNormalized .z g' W' = violationNormalized .z g W := by
  have hn' : 2 ≤ W'.nModes := by rw [nModes_congr h3 h4]; exact hn
  have hr : ∀ ell m, HasMode W ell m → reflected .z W' ell m = Complex.exp ((m * φ : ℝ) * Complex.I) * reflected .z W ell m := by
    intro ell m hm
    unfold reflected
    simp only [h2]
    rw [h ell (-m) (hasMode_neg hm), map_mul, ← Complex.exp_conj]
    rw [show conj (((((-m : Int) : ℝ) * φ : ℝ) : ℂ) * Complex.I) = ((m * φ : ℝ) : ℂ) * Complex.I by
      rw [map_mul, Complex.conj_ofReal, Complex.conj_I]; push_cast; ring]
    ring
  have eA : total W'.ellMin W'.ellMax (fun ell m => (mode W' ell m - reflected .z W' ell m) / 2) = total W.ellMin W.ellMax fun ell m => (mode W ell m - reflected .z W ell m) / 2 := by
    rw [h3, h4]
    refine total_congr fun ell m a1 a2 a3 => ?_
    rw [hr ell m ⟨a1, a2, a3⟩, h ell m ⟨a1, a2, a3⟩, ← mul_sub, mul_div_assoc, norm_mul, Complex.norm_exp_ofReal_mul_I, one_mul]
  have eN : Violation.norm W' = Violation.norm W := by
    rw [norm_eq W h0, norm_eq W' (by rw [h3]; exact h0), h3, h4]
    exact total_congr fun ell m a1 a2 a3 => by rw [h ell m ⟨a1, a2, a3⟩, norm_mul, Complex.norm_exp_ofReal_mul_I, one_mul]
  rw [violation_squared_spec .z g W h0 hk hn, violation_squared_spec .z g' W' (by rw [h3]; exact h0) (h1.trans hk) hn', normalized_eq .z g W h0 hk hn,
    normalized_eq .z g' W' (by rw [h3]; exact h0) (h1.trans hk) hn', eA, eN]
  exact ⟨rfl, rfl⟩

/-! ## A case that meets the hypotheses -/

/-- The (2,2) mode alone. -/
noncomputable def sample : Wave := { known := true, spin := -2, ellMin := 2, ellMax := 2, row := fun i => if i = 4 then 1 else 0, frame := ⟨1, 0, 0, 0⟩ }

example : (0 : Int) ≤ sample.ellMin ∧ sample.known = true ∧ 2 ≤ sample.nModes := ⟨by decide, rfl, by decide⟩

/-- C84.  For the (2,2) mode alone half of the power violates the reflection symmetry along `z`. -/
theorem sample_violation (g : Row ℂ) : violationSquared .z g sample = .ok (1 / 2) := by
  rw [violation_squared_spec .z g sample (by decide) rfl (by decide)]
  congr 1
  have h1 : (Icc (2 : Int) 2) = {2} := by decide
  have h2 : (Icc (-2 : Int) 2) = {-2, -1, 0, 1, 2} := by decide
  show total 2 2 _ = _
  unfold total
  rw [h1, Finset.sum_singleton, h2]
  rw [Finset.sum_insert (by decide), Finset.sum_insert (by decide), Finset.sum_insert (by decide), Finset.sum_insert (by decide), Finset.sum_singleton]
  have hm : ∀ m : Int, mode sample 2 m = if m = 2 then 1 else 0 := by
    intro m
    show (if lmIndex 2 m 2 = 4 then (1 : ℂ) else 0) = _
    have : lmIndex 2 m 2 = 4 ↔ m = 2 := by unfold lmIndex; omega
    simp only [this]
  have hr : ∀ m : Int, reflected .z sample 2 m = if m = -2 then 1 else 0 := by
    intro m
    show sgn (2 + -2) * conj (mode sample 2 (-m)) = _
    rw [hm]
    have : (-m = 2) ↔ m = -2 := by omega
    rw [show sgn (2 + -2) = 1 from if_pos (by decide)]
    simp only [this]
    split <;> simp
  simp only [hm, hr]
  norm_num

end Verif.Props.Violation
