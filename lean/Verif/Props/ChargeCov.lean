import Verif.Lemmas.ChargeCov
import Verif.Lemmas.BmsLorentz
import Verif.Props.AbdModes

/-!
# C81: the charges in rotated and time-translated frames
-/

namespace Verif.Props.ChargeCov
open Verif.Charges Verif.ChargeCov Verif.Spec.ChargeCov Verif.Spec.Rotation Verif.Spec.Charges ComplexConjugate
open Verif.Spec.Balance (IsProduct)
open Verif.AbdTransform (rotateVec)
open Verif.Props.Charges

section
variable {L : Int} {mul : Int → Int → Modes → Modes → Modes} (hmul : IsProduct L mul) (hL : 1 ≤ L) {Q : Quaternion ℝ} (hQ : UnitRotor Q) {tau : ℝ} {d' d : Abd} (h : Rotated L Q tau d' d)
include hmul hL hQ h

theorem mass_modes (ell m : Int) (h0 : 0 ≤ ell) (hl : ell ≤ L) (hm : |m| ≤ ell) :
    d'.psi2 ell m + mul 2 (-2) d'.sigma (bar 2 d'.sigmaDot) ell m = rot ell Q (fun m => d.psi2 ell m + mul 2 (-2) d.sigma (bar 2 d.sigmaDot) ell m) m := by
  rw [rot_add, h.psi2 ell m (by simpa using h0) hl hm, mul_rotated hmul (by omega) hQ h.sigma (bar_rotated h.sigmaDot) ell m (by simpa using h0) hm]

theorem spin_modes (m : Int) (hm : |m| ≤ 1) :
    d'.psi1 1 m + mul 2 (-1) d'.sigma (ethGHP (-2) (bar 2 d'.sigma)) 1 m = rot 1 Q (fun m => d.psi1 1 m + mul 2 (-1) d.sigma (ethGHP (-2) (bar 2 d.sigma)) 1 m) m := by
  rw [rot_add, h.psi1 1 m (by simp) hL hm, mul_rotated hmul (by omega) hQ h.sigma (show RotatedModes L (-1) Q _ _ from eth_rotated (bar_rotated h.sigma)) 1 m (by simp) hm]

/-- **C81**: the energy does not change, and the momentum has the components of the same vector in the rotated frame. -/
theorem four_momentum_rotated (dflt : Int) : ∃ (E : ℝ) (p : Fin 3 → ℝ), bondiFourMomentum mul dflt d = .ok (E :: List.ofFn p) ∧ bondiFourMomentum mul dflt d' = .ok (E :: List.ofFn (rotateVec (star Q) p)) := by
  refine ⟨-vector (fun ell m => d.psi2 ell m + mul 2 (-2) d.sigma (bar 2 d.sigmaDot) ell m) 0, fun i => -vector (fun ell m => d.psi2 ell m + mul 2 (-2) d.sigma (bar 2 d.sigmaDot) ell m) i.succ, ?_, ?_⟩
  · rw [four_momentum_spec, List.ofFn_succ]
  · rw [four_momentum_spec, List.ofFn_succ, vector_rotated_zero (f := fun ell m => d.psi2 ell m + mul 2 (-2) d.sigma (bar 2 d.sigmaDot) ell m) (mass_modes hmul hL hQ h 0 0 le_rfl (by omega) (by simp))]
    congr 3
    funext i
    rw [vector_rotated hQ (f := fun ell m => d.psi2 ell m + mul 2 (-2) d.sigma (bar 2 d.sigmaDot) ell m) (fun m hm => mass_modes hmul hL hQ h 1 m (by norm_num) hL hm)]
    have := congrFun (Verif.Lemmas.Bms.rotateVec_neg (star Q) fun i => vector (fun ell m => d.psi2 ell m + mul 2 (-2) d.sigma (bar 2 d.sigmaDot) ell m) i.succ) i
    exact this.symm

/-- **C81**: the rest mass does not change. -/
theorem rest_mass_rotated (dflt : Int) : bondiRestMass mul dflt d' = bondiRestMass mul dflt d := by
  obtain ⟨E, p, h1, h2⟩ := four_momentum_rotated hmul hL hQ h dflt
  unfold bondiRestMass
  rw [h1, h2]
  have e : ∀ v : Fin 3 → ℝ, ((List.ofFn v).map (· ^ 2)).sum = ∑ i, v i ^ 2 := by
    intro v
    rw [List.map_ofFn, List.sum_ofFn]
    rfl
  have e2 : ∑ i, rotateVec (star Q) p i ^ 2 = ∑ i, p i ^ 2 := Verif.Props.GridModes.rotateVec_length (star Q) (Verif.Rotation.unit_star hQ) p
  simp only [ok_bind, pyGet, List.drop_succ_cons, List.drop_zero, e, e2]
  rfl

/-- **C81**: the angular momentum has the components of the same vector in the rotated frame, at all times. -/
theorem angular_momentum_rotated : ∃ J : Fin 3 → ℝ, bondiAngularMomentum mul d = .ok (List.ofFn J) ∧ bondiAngularMomentum mul d' = .ok (List.ofFn (rotateVec (star Q) J)) := by
  refine ⟨_, (angular_momentum_spec mul d).1, ?_⟩
  rw [(angular_momentum_spec mul d').1]
  congr 2
  funext i
  refine vector_rotated hQ (fun m hm => ?_) i
  rw [Verif.Props.BoostFlux.rot_smul, spin_modes hmul hL hQ h m hm]

/-- **C81**: the center-of-mass charge has the components of the same vector in the rotated frame; for the boost charge, `tau` times the momentum is added. -/
theorem CoM_rotated (dflt : Int) : ∃ (G N p : Fin 3 → ℝ) (E : ℝ), bondiCoMCharge mul d = .ok (List.ofFn G) ∧ bondiBoostCharge mul d = .ok (List.ofFn N) ∧ bondiFourMomentum mul dflt d = .ok (E :: List.ofFn p) ∧
    bondiCoMCharge mul d' = .ok (List.ofFn (rotateVec (star Q) G)) ∧ bondiBoostCharge mul d' = .ok (List.ofFn (rotateVec (star Q) (N + tau • p))) := by
  have hG' : bondiCoMCharge mul d' = .ok (List.ofFn (rotateVec (star Q) (fun i : Fin 3 => -(vector (fun ell m => d.psi1 ell m + mul 2 (-1) d.sigma (ethGHP (-2) (bar 2 d.sigma)) ell m) i.succ + vector (mul 2 (-2) d.sigma (bar 2 d.sigma)) i.succ / 2)))) := by
    rw [(angular_momentum_spec mul d').2]
    congr 2
    have e : (fun i : Fin 3 => -(vector (fun ell m => d.psi1 ell m + mul 2 (-1) d.sigma (ethGHP (-2) (bar 2 d.sigma)) ell m) i.succ + vector (mul 2 (-2) d.sigma (bar 2 d.sigma)) i.succ / 2)) =
        -((fun i : Fin 3 => vector (fun ell m => d.psi1 ell m + mul 2 (-1) d.sigma (ethGHP (-2) (bar 2 d.sigma)) ell m) i.succ) + (1 / 2 : ℝ) • fun i : Fin 3 => vector (mul 2 (-2) d.sigma (bar 2 d.sigma)) i.succ) := by
      funext i
      simp only [Pi.neg_apply, Pi.add_apply, Pi.smul_apply, smul_eq_mul]
      ring
    rw [e, Verif.Lemmas.Bms.rotateVec_neg, Verif.Lemmas.Bms.rotateVec_add, Verif.Lemmas.Bms.rotateVec_smul]
    funext i
    simp only [Pi.neg_apply, Pi.add_apply, Pi.smul_apply, smul_eq_mul]
    rw [vector_rotated hQ (f := fun ell m => d.psi1 ell m + mul 2 (-1) d.sigma (ethGHP (-2) (bar 2 d.sigma)) ell m) (fun m hm => spin_modes hmul hL hQ h m hm), vector_rotated hQ (fun m hm => mul_rotated hmul (by omega) hQ h.sigma (bar_rotated h.sigma) 1 m (by simp) hm)]
    ring
  obtain ⟨G, N, P, g1, g2, g3, g4⟩ := CoM_spec mul dflt d
  obtain ⟨G', N', P', k1, k2, k3, k4⟩ := CoM_spec mul dflt d'
  obtain ⟨E, p, h1, h2⟩ := four_momentum_rotated hmul hL hQ h dflt
  have cons : ∀ (P : Fin 4 → ℝ) (E : ℝ) (p : Fin 3 → ℝ), (Except.ok (List.ofFn P) : Py (List ℝ)) = .ok (E :: List.ofFn p) → ∀ i : Fin 3, P i.succ = p i := by
    intro P E p e i
    rw [List.ofFn_succ] at e
    injection e with e
    injection e with _ e
    exact congrFun (List.ofFn_injective e) i
  have hP := cons P E p (g3.symm.trans h1)
  have hP' := cons P' E _ (k3.symm.trans h2)
  have hGe : G = fun i : Fin 3 => -(vector (fun ell m => d.psi1 ell m + mul 2 (-1) d.sigma (ethGHP (-2) (bar 2 d.sigma)) ell m) i.succ + vector (mul 2 (-2) d.sigma (bar 2 d.sigma)) i.succ / 2) := by
    have := g1.symm.trans (angular_momentum_spec mul d).2
    injection this with this
    exact List.ofFn_injective this
  rw [← hGe] at hG'
  have hGe' : G' = rotateVec (star Q) G := by
    have := k1.symm.trans hG'
    injection this with this
    exact List.ofFn_injective this
  refine ⟨G, N, p, E, g1, g2, h1, hG', k2.trans ?_⟩
  congr 2
  have hN : N = G + (-d.t) • p := by
    funext i
    simp only [Pi.add_apply, Pi.smul_apply, smul_eq_mul, g4 i, hP i]
    ring
  funext i
  have e1 := k4 i
  rw [hP' i, hGe', h.t] at e1
  rw [hN, Verif.Lemmas.Bms.rotateVec_add, Verif.Lemmas.Bms.rotateVec_add, Verif.Lemmas.Bms.rotateVec_smul, Verif.Lemmas.Bms.rotateVec_smul]
  simp only [Pi.add_apply, Pi.smul_apply, smul_eq_mul]
  linarith

/-- **C81**: the supermomentum, in each of its definitions and integrated or not, has the modes of the same function in the rotated frame. -/
theorem supermomentum_rotated (s : String) (hs : s ∈ names) (integrated : Bool) : ∃ f f', supermomentum (mul 2 (-2) d.sigma (bar 2 d.sigmaDot)) d s integrated = .ok f ∧
    supermomentum (mul 2 (-2) d'.sigma (bar 2 d'.sigmaDot)) d' s integrated = .ok f' ∧ RotatedModes L 0 Q f' f := by
  have h1 : RotatedModes L 0 Q (fun ell m => d'.psi2 ell m + mul 2 (-2) d'.sigma (bar 2 d'.sigmaDot) ell m) (fun ell m => d.psi2 ell m + mul 2 (-2) d.sigma (bar 2 d.sigmaDot) ell m) :=
    fun ell m h0 hl hm => mass_modes hmul hL hQ h ell m (by simpa using h0) hl hm
  have h2 : RotatedModes L 0 Q (ethGHP (-1) (ethGHP (-2) (bar 2 d'.sigma))) (ethGHP (-1) (ethGHP (-2) (bar 2 d.sigma))) := eth_rotated (eth_rotated (bar_rotated h.sigma))
  have h3 : RotatedModes L 0 Q (ethbarGHP 1 (ethbarGHP 2 d'.sigma)) (ethbarGHP 1 (ethbarGHP 2 d.sigma)) := ethbar_rotated (ethbar_rotated h.sigma)
  have comb : ∀ {g f g2 f2 : Modes} (k : ℂ), RotatedModes L 0 Q g f → RotatedModes L 0 Q g2 f2 → RotatedModes L 0 Q (fun ell m => g ell m + k * g2 ell m) (fun ell m => f ell m + k * f2 ell m) := by
    intro g f g2 f2 k a b ell m h0 hl hm
    have e : rot ell Q (fun m => f ell m + k * f2 ell m) m = rot ell Q (f ell) m + rot ell Q (fun m => k * f2 ell m) m := rot_add ell Q (f ell) (fun m => k * f2 ell m) m
    show g ell m + k * g2 ell m = rot ell Q (fun m => f ell m + k * f2 ell m) m
    rw [e, Verif.Props.BoostFlux.rot_smul, a ell m h0 hl hm, b ell m h0 hl hm]
  have key : ∃ f f', supermomentumDensity (mul 2 (-2) d.sigma (bar 2 d.sigmaDot)) d s = .ok f ∧ supermomentumDensity (mul 2 (-2) d'.sigma (bar 2 d'.sigmaDot)) d' s = .ok f' ∧ RotatedModes L 0 Q f' f := by
    unfold supermomentumDensity
    split
    · exact ⟨_, _, rfl, rfl, h1⟩
    split
    · refine ⟨_, _, rfl, rfl, ?_⟩
      have := comb 1 h1 h2
      simpa only [one_mul] using this
    split
    · refine ⟨_, _, rfl, rfl, ?_⟩
      have := comb 0.5 h1 (comb (-1) h2 h3)
      have e : ∀ a b : ℂ, a - b = a + (-1) * b := fun a b => by ring
      simpa only [e] using this
    split
    · refine ⟨_, _, rfl, rfl, ?_⟩
      have := comb (-1) h1 h3
      have e : ∀ a b : ℂ, a - b = a + (-1) * b := fun a b => by ring
      simpa only [e] using this
    · rename_i n1 n2 n3 n4
      simp [names] at hs n1 n2 n3 n4
      tauto
  obtain ⟨f, f', e1, e2, e3⟩ := key
  unfold supermomentum
  rw [e1, e2]
  refine ⟨_, _, rfl, rfl, ?_⟩
  cases integrated
  · exact e3
  · intro ell m h0 hl hm
    have e4 := bar_rotated e3 ell m (by simpa using h0) hl hm
    have e5 : ∀ f : Modes, (fun m => -0.5 * bar 0 f ell m / ((√Real.pi : ℝ) : ℂ)) = fun m => (-0.5 / ((√Real.pi : ℝ) : ℂ)) * bar 0 f ell m := by
      intro f
      funext m
      ring
    simp only [if_true]
    rw [e5, Verif.Props.BoostFlux.rot_smul, ← e4]
    ring

end

/-- The cross product. -/
def cross (v w : Fin 3 → ℝ) : Fin 3 → ℝ := ![v 1 * w 2 - v 2 * w 1, v 2 * w 0 - v 0 * w 2, v 0 * w 1 - v 1 * w 0]

theorem cross_rotated {q : Quaternion ℝ} (hq : UnitRotor q) (v w : Fin 3 → ℝ) : cross (rotateVec q v) (rotateVec q w) = rotateVec q (cross v w) := by
  unfold UnitRotor at hq
  rw [Quaternion.normSq_def'] at hq
  funext i
  fin_cases i
  · show rotateVec q v 1 * rotateVec q w 2 - rotateVec q v 2 * rotateVec q w 1 = rotateVec q (cross v w) 0
    rw [show rotateVec q (cross v w) 0 = (q.re ^ 2 + q.imI ^ 2 + q.imJ ^ 2 + q.imK ^ 2) * rotateVec q (cross v w) 0 by rw [hq, one_mul]]
    simp only [Verif.Lemmas.Bms.rotateVec_0, Verif.Lemmas.Bms.rotateVec_1, Verif.Lemmas.Bms.rotateVec_2, cross, Matrix.cons_val]
    ring
  · show rotateVec q v 2 * rotateVec q w 0 - rotateVec q v 0 * rotateVec q w 2 = rotateVec q (cross v w) 1
    rw [show rotateVec q (cross v w) 1 = (q.re ^ 2 + q.imI ^ 2 + q.imJ ^ 2 + q.imK ^ 2) * rotateVec q (cross v w) 1 by rw [hq, one_mul]]
    simp only [Verif.Lemmas.Bms.rotateVec_0, Verif.Lemmas.Bms.rotateVec_1, Verif.Lemmas.Bms.rotateVec_2, cross, Matrix.cons_val]
    ring
  · show rotateVec q v 0 * rotateVec q w 1 - rotateVec q v 1 * rotateVec q w 0 = rotateVec q (cross v w) 2
    rw [show rotateVec q (cross v w) 2 = (q.re ^ 2 + q.imI ^ 2 + q.imJ ^ 2 + q.imK ^ 2) * rotateVec q (cross v w) 2 by rw [hq, one_mul]]
    simp only [Verif.Lemmas.Bms.rotateVec_0, Verif.Lemmas.Bms.rotateVec_1, Verif.Lemmas.Bms.rotateVec_2, cross, Matrix.cons_val]
    ring

/-- **C81**: the dimensionless spin has the components of the same vector in the rotated frame, and does not depend on the origin of time. -/
theorem dimensionless_spin_rotated {Q : Quaternion ℝ} (hQ : UnitRotor Q) (N J p : Fin 3 → ℝ) (E tau : ℝ) :
    dimensionlessSpin (rotateVec (star Q) (N + tau • p)) (rotateVec (star Q) J) E (rotateVec (star Q) p) = rotateVec (star Q) (dimensionlessSpin N J E p) := by
  have hq := Verif.Rotation.unit_star hQ
  generalize star Q = q at hq
  have hdot : ∀ v w : Fin 3 → ℝ, ∑ i, rotateVec q v i * rotateVec q w i = ∑ i, v i * w i := by
    intro v w
    rw [Verif.Props.FluxCovariance.rotateVec_adjoint, ← Verif.Props.AbdTransform.rotateVec_mul, Verif.Rotation.unit_left hq, Verif.Props.AbdTransform.rotateVec_one]
  have hsq : ∀ v : Fin 3 → ℝ, ∑ i, rotateVec q v i ^ 2 = ∑ i, v i ^ 2 := fun v => Verif.Props.GridModes.rotateVec_length q hq v
  have hdiv : ∀ (v : Fin 3 → ℝ) (k : ℝ), (fun i => rotateVec q v i / k) = rotateVec q (fun i => v i / k) := by
    intro v k
    have e : (fun i => v i / k) = k⁻¹ • v := by
      funext i
      simp [div_eq_inv_mul]
    rw [e, Verif.Lemmas.Bms.rotateVec_smul]
    funext i
    simp [div_eq_inv_mul]
  have hx : cross (fun i => p i / E) (N + tau • p) = cross (fun i => p i / E) N := by
    funext i
    fin_cases i <;> simp [cross] <;> ring
  have form : ∀ N J p : Fin 3 → ℝ, dimensionlessSpin N J E p =
      (E ^ 2 - ∑ i, p i ^ 2)⁻¹ • ((1 / √(1 - √(∑ i, (p i / E) ^ 2) ^ 2)) • (J + cross (fun i => p i / E) N) +
        (-((1 / √(1 - √(∑ i, (p i / E) ^ 2) ^ 2)) - 1) * ∑ i, J i * (if √(∑ i, (p i / E) ^ 2) ≠ 0 then fun i => p i / E / √(∑ i, (p i / E) ^ 2) else fun i => p i / E) i) •
          (if √(∑ i, (p i / E) ^ 2) ≠ 0 then fun i => p i / E / √(∑ i, (p i / E) ^ 2) else fun i => p i / E)) := by
    intro N J p
    funext i
    unfold dimensionlessSpin cross
    simp only [Pi.add_apply, Pi.smul_apply, smul_eq_mul]
    rw [div_eq_inv_mul]
    ring
  rw [form, form, hsq p]
  have hv := hdiv p E
  have hv' : ∀ i, rotateVec q p i / E = rotateVec q (fun i => p i / E) i := fun i => congrFun hv i
  have hhat : (if √(∑ i, (p i / E) ^ 2) ≠ 0 then fun i => rotateVec q (fun i => p i / E) i / √(∑ i, (p i / E) ^ 2) else fun i => rotateVec q (fun i => p i / E) i) =
      rotateVec q (if √(∑ i, (p i / E) ^ 2) ≠ 0 then fun i => p i / E / √(∑ i, (p i / E) ^ 2) else fun i => p i / E) := by
    split
    · rw [hdiv]
    · rfl
  simp only [hv', hsq]
  rw [hhat, hdot, cross_rotated hq, hx, Verif.Lemmas.Bms.rotateVec_smul, Verif.Lemmas.Bms.rotateVec_add, Verif.Lemmas.Bms.rotateVec_smul, Verif.Lemmas.Bms.rotateVec_add, Verif.Lemmas.Bms.rotateVec_smul]

/-! ## `transform` -/

open Verif.AbdModes.Spec (Transformed Good mode)
open Verif.GridModes.Spec (TimeAndRotation)

/-- The data at one time after a time translation and a rotation. -/
theorem rotated_of_transformed {w : List ℝ → Nat → Nat → ℝ} (hw : Derivative w) {a b : AbdModes.Abd} {tau : ℝ} {R : Quaternion ℝ} (h : Transformed b a tau R) (hL : b.ellMax = a.ellMax) (i : Nat) (hi : i < a.t.length) :
    Rotated a.ellMax R tau (dataAt w b i) (dataAt w a i) := by
  obtain ⟨ht, hc⟩ := h
  have key : ∀ (c : Fin 6) (j : Nat), j < a.t.length → RotatedModes a.ellMax (Verif.AbdModes.Spec.spinOf c) R (mode b c j) (mode a c j) := by
    intro c j hj ell m hs hl hm
    have hm' := abs_le.1 hm
    have := (hc c).2 j hj ell m hs (by rw [hL]; exact hl) hm'.1 hm'.2
    rwa [if_pos hl] at this
  refine ⟨?_, key 1 i hi, key 2 i hi, key 5 i hi, ?_⟩
  · simp only [dataAt, ht]
    rw [List.getD_eq_getElem _ _ (by simpa using hi), List.getD_eq_getElem _ _ hi]
    simp
  · intro ell m hs hl hm
    simp only [dataAt, ht, hw a.t tau, List.length_map]
    have e : rot ell R (fun m => ∑ j ∈ Finset.range a.t.length, (w a.t i j : ℂ) * mode a 5 j ell m) m = ∑ j ∈ Finset.range a.t.length, (w a.t i j : ℂ) * rot ell R (mode a 5 j ell) m := by
      unfold rot
      simp only [Finset.sum_mul, Finset.mul_sum]
      rw [Finset.sum_comm]
      refine Finset.sum_congr rfl fun j _ => Finset.sum_congr rfl fun n _ => ?_
      ring
    refine Eq.trans ?_ e.symm
    refine Finset.sum_congr rfl fun j hj => ?_
    rw [key 5 j (Finset.mem_range.1 hj) ell m hs hl hm]

theorem unit_of_rotation {kw : TransformKwargs.Kw} {tau : ℝ} {R : Quaternion ℝ} (h : TimeAndRotation kw tau R) : UnitRotor R := by
  rcases h.rotation with ⟨-, rfl⟩ | ⟨q, -, hq, rfl⟩
  · exact Verif.Rotation.unit_one
  · have h0 : 0 < √(Quaternion.normSq q) := lt_of_lt_of_le (by norm_num) hq
    have h1 : Quaternion.normSq q ≠ 0 := by
      intro e
      rw [e, Real.sqrt_zero] at h0
      exact lt_irrefl _ h0
    unfold UnitRotor
    rw [Quaternion.normSq_smul, inv_pow, Real.sq_sqrt Quaternion.normSq_nonneg, inv_mul_cancel₀ h1]

/-- **C81**: for the data that `transform` returns for a time translation by `tau` and a rotation by `R`, at every time: the energy and the rest mass are the same, and the momentum, the angular momentum, the center-of-mass charge, and the
boost charge plus `tau` times the momentum, have the components of the same vectors in the rotated frame. -/
theorem charges_of_transform {spline : List (ℝ × ℂ) → ℝ → ℂ} (hs : Verif.AbdModes.Spec.Interpolates spline) {map2salm : List ℂ → Nat → Nat → Int → Int → Verif.Modes.Row ℂ} (hE : Verif.GridModes.Spec.Exact map2salm)
    (a : AbdModes.Abd) (ha : Good a) (h1 : 1 ≤ a.ellMax) (kw : TransformKwargs.Kw) (tau : ℝ) (R : Quaternion ℝ) (h : TimeAndRotation kw tau R) (hw : kw.working_ell_max = none) (hL : kw.output_ell_max = none)
    {w : List ℝ → Nat → Nat → ℝ} (hd : Derivative w) {mul : Int → Int → Modes → Modes → Modes} (hmul : IsProduct a.ellMax mul) (dflt : Int) :
    ∃ b, Verif.AbdModes.transform spline map2salm a kw = .ok b ∧ b.t = a.t.map (· - tau) ∧ ∀ i, i < a.t.length → ∃ (E : ℝ) (p J G N : Fin 3 → ℝ),
      bondiFourMomentum mul dflt (dataAt w a i) = .ok (E :: List.ofFn p) ∧ bondiFourMomentum mul dflt (dataAt w b i) = .ok (E :: List.ofFn (rotateVec (star R) p)) ∧
      bondiRestMass mul dflt (dataAt w b i) = bondiRestMass mul dflt (dataAt w a i) ∧
      bondiAngularMomentum mul (dataAt w a i) = .ok (List.ofFn J) ∧ bondiAngularMomentum mul (dataAt w b i) = .ok (List.ofFn (rotateVec (star R) J)) ∧
      bondiCoMCharge mul (dataAt w a i) = .ok (List.ofFn G) ∧ bondiCoMCharge mul (dataAt w b i) = .ok (List.ofFn (rotateVec (star R) G)) ∧
      bondiBoostCharge mul (dataAt w a i) = .ok (List.ofFn N) ∧ bondiBoostCharge mul (dataAt w b i) = .ok (List.ofFn (rotateVec (star R) (N + tau • p))) := by
  obtain ⟨b, e1, e2, e3⟩ := Verif.Props.AbdModes.transform_time_rotation hs hE a ha kw tau R h (2 * a.ellMax + 1) a.ellMax (by rw [hw]; rfl) (by rw [hL]; rfl) (by omega) (by omega)
  refine ⟨b, e1, e3.1, fun i hi => ?_⟩
  have hR := unit_of_rotation h
  have hr := rotated_of_transformed hd e3 e2 i hi
  obtain ⟨E, p, a1, a2⟩ := four_momentum_rotated hmul h1 hR hr dflt
  obtain ⟨J, b1, b2⟩ := angular_momentum_rotated hmul h1 hR hr
  obtain ⟨G, N, p', E', c1, c2, c3, c4, c5⟩ := CoM_rotated hmul h1 hR hr dflt
  have hp : p' = p := by
    have := c3.symm.trans a1
    injection this with this
    injection this with _ this
    exact List.ofFn_injective this
  subst hp
  exact ⟨E, p', J, G, N, a1, a2, rest_mass_rotated hmul h1 hR hr dflt, b1, b2, c1, c4, c2, c5⟩

/-! ## The hypotheses can be met -/

/-- Any data, rotated. -/
example (L : Int) (Q : Quaternion ℝ) (tau : ℝ) (d : Abd) :
    Rotated L Q tau ⟨d.t - tau, fun l => rot l Q (d.psi1 l), fun l => rot l Q (d.psi2 l), fun l => rot l Q (d.sigma l), fun l => rot l Q (d.sigmaDot l)⟩ d :=
  ⟨rfl, fun _ _ _ _ _ => rfl, fun _ _ _ _ _ => rfl, fun _ _ _ _ _ => rfl, fun _ _ _ _ _ => rfl⟩

/-- The difference quotient with the next time. -/
noncomputable def forward (t : List ℝ) (i j : Nat) : ℝ := match t[i]?, t[i + 1]? with
  | some a, some b => if j = i + 1 then 1 / (b - a) else if j = i then -(1 / (b - a)) else 0
  | _, _ => 0

theorem forward_derivative : Derivative forward := by
  intro t tau
  funext i j
  unfold forward
  simp only [List.getElem?_map]
  cases t[i]? <;> cases t[i + 1]? <;> simp

/-- A quarter of a turn about `z` takes the momentum along `x` to one along `-y` (the new `x` axis is the old `y` axis). -/
noncomputable def quarter : Quaternion ℝ := ⟨√(1 / 2), 0, 0, √(1 / 2)⟩

example : UnitRotor quarter ∧ rotateVec (star quarter) ![1, 0, 0] = ![0, -1, 0] := by
  have h : √(1 / 2 : ℝ) ^ 2 = 1 / 2 := Real.sq_sqrt (by norm_num)
  have c0 : quarter.re = √(1 / 2) := rfl
  have c1 : quarter.imI = 0 := rfl
  have c2 : quarter.imJ = 0 := rfl
  have c3 : quarter.imK = √(1 / 2) := rfl
  generalize quarter = q at *
  constructor
  · unfold UnitRotor
    rw [Quaternion.normSq_def', c0, c1, c2, c3, h]
    norm_num
  · funext i
    fin_cases i
    · refine (Verif.Lemmas.Bms.rotateVec_0 (star q) ![1, 0, 0]).trans ?_
      simp only [Quaternion.re_star, Quaternion.imI_star, Quaternion.imJ_star, Quaternion.imK_star, Matrix.cons_val, Fin.zero_eta, c0, c1, c2, c3]
      ring
    · refine (Verif.Lemmas.Bms.rotateVec_1 (star q) ![1, 0, 0]).trans ?_
      simp only [Quaternion.re_star, Quaternion.imI_star, Quaternion.imJ_star, Quaternion.imK_star, Matrix.cons_val, Fin.mk_one, c0, c1, c2, c3]
      linear_combination (-2) * h
    · refine (Verif.Lemmas.Bms.rotateVec_2 (star q) ![1, 0, 0]).trans ?_
      simp only [Quaternion.re_star, Quaternion.imI_star, Quaternion.imJ_star, Quaternion.imK_star, Matrix.cons_val, Fin.reduceFinMk, c0, c1, c2, c3]
      ring

end Verif.Props.ChargeCov
