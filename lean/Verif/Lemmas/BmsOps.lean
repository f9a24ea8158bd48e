import Verif.Lemmas.BmsNull

/-!
# Reordering, inversion and composition, in terms of the parameters
-/

namespace Verif.Lemmas.Bms

open Verif Verif.Bms Verif.AbdTransform Verif.Spec.Bms Verif.Props.AbdTransform Matrix

/-- Velocity of the boost if the rotation is listed first. -/
noncomputable def leftV (L : Lorentz) : Vec := open Classical in if RotFirst L.order then L.v else rotateVec L.q L.v

/-- A Lorentz transformation as it can occur. -/
def LOk (L : Lorentz) : Prop := Rotor L.q ∧ dot L.v L.v < 1 ∧ 0 ≤ L.ellMax

theorem leftV_lt (L : Lorentz) (h : LOk L) : dot (leftV L) (leftV L) < 1 := by
  unfold leftV
  split_ifs
  · exact h.2.1
  · rw [rotateVec_dot _ h.1.1]
    exact h.2.1

theorem spin_left (L : Lorentz) (h : LOk L) : lorentzToSpin L = .ok (Bm (leftV L) * Mq L.q) := by
  classical
  rw [lorentzToSpin_eq L h.1 h.2.1]
  unfold leftV
  split_ifs with ho
  · rfl
  · rw [Mq_Bm _ h.1.1]

theorem unit_star {q : Quaternion ℝ} (h : Rotor q) : Rotor (star q) := by
  refine ⟨by rw [normSq_star]; exact h.1, ?_⟩
  intro h1
  apply h.2
  have := congrArg star h1
  have e : star (-1 : Quaternion ℝ) = -1 := by
    apply Quaternion.ext <;> simp
    all_goals exact neg_zero.symm
  rw [star_star] at this
  exact this.trans e

/-- Velocity for the order `o`, from the velocity for the order in which the rotation is listed first. -/
noncomputable def velFor (o : Order) (q : Quaternion ℝ) (v : Vec) : Vec := open Classical in if RotFirst o then v else rotateVec (star q) v

theorem spinToLorentz_any (ext : Ext) (he : SvdOk ext) (q : Quaternion ℝ) (v : Vec) (hq : Quaternion.normSq q = 1) (hv : dot v v < 1) (o : Order) :
    spinToLorentz ext (Bm v * Mq q) o = .ok (made (fixSign q) (velFor o q v) o) := by
  unfold velFor
  split_ifs with ho
  · exact spinToLorentz_left ext he q v hq hv o ho
  · rw [Bm_Mq q hq]
    exact spinToLorentz_right ext he q _ hq (by rwa [rotateVec_dot _ (by rw [normSq_star]; exact hq)]) o ho

theorem reorder_eq (ext : Ext) (he : SvdOk ext) (L : Lorentz) (h : LOk L) (o : Order) (h1 : .frame_rotation ∈ o) (h2 : .boost_velocity ∈ o) (hne : L.order ≠ o) :
    L.reorder ext o = .ok (made L.q (velFor o L.q (leftV L)) o) := by
  unfold Lorentz.reorder
  rw [if_neg (not_not.mpr ⟨h1, h2⟩), if_neg hne, spin_left L h, ok_bind, spinToLorentz_any ext he _ _ h.1.1 (leftV_lt L h), fixSign_of_unit _ h.1]

theorem inv_matrix (q : Quaternion ℝ) (v : Vec) (hq : Quaternion.normSq q = 1) (hv : dot v v < 1) : (Bm v * Mq q)⁻¹ = Bm (rotateVec (star q) (-v)) * Mq (star q) := by
  have hs : Quaternion.normSq (star q) = 1 := by rw [normSq_star]; exact hq
  apply Matrix.inv_eq_right_inv
  rw [← Mq_Bm (star q) hs, Matrix.mul_assoc, ← Matrix.mul_assoc (Mq q), Mq_mul_star q hq, Matrix.one_mul, Bm_mul_neg v hv]

theorem inverse_eq (ext : Ext) (he : SvdOk ext) (L : Lorentz) (h : LOk L) (o : Option Order) :
    L.inverse ext o = .ok (made (star L.q) (velFor (o.getD L.order.reverse) (star L.q) (rotateVec (star L.q) (-leftV L))) (o.getD L.order.reverse)) := by
  have hs := unit_star h.1
  unfold Lorentz.inverse
  rw [spin_left L h, ok_bind, inv_matrix _ _ h.1.1 (leftV_lt L h), spinToLorentz_any ext he _ _ hs.1 (by rw [rotateVec_dot _ hs.1, dot_neg_self]; exact leftV_lt L h), fixSign_of_unit _ hs]

/-- The inverse of "boost `v` × rotation `q`" as boost × rotation. -/
theorem act_inv (q : Quaternion ℝ) (v : Vec) (hq : Quaternion.normSq q = 1) (X : Four) : act (star q) (rotateVec (star q) (-v)) X = rot (star q) (boost (-v) X) := by
  rw [rot_boost _ (by rw [normSq_star]; exact hq)]
  rfl

/-- The function on the sphere that comes from a function on the sphere by a Lorentz transformation: `S`, extended to null vectors with weight 1, after `Λ⁻¹`. -/
noncomputable def T (Λinv : Four → Four) (f : Vec → ℝ) (r : Vec) : ℝ := (Λinv (null r)).1 * f (dir (Λinv (null r)))

/-- A linear map that preserves future null vectors. -/
def Nice (Λ : Four → Four) : Prop := (∀ X, Future X → Future (Λ X)) ∧ ∀ (k : ℝ) X, Λ (k • X) = k • Λ X

theorem nice_rot (q : Quaternion ℝ) (hq : Quaternion.normSq q = 1) : Nice (rot q) := ⟨fun _ h => rot_future q hq h, rot_smul q⟩
theorem nice_boost (v : Vec) (hv : dot v v < 1) : Nice (boost v) := ⟨fun _ h => boost_future v hv h, boost_smul v⟩
theorem nice_comp {Λ M : Four → Four} (h1 : Nice Λ) (h2 : Nice M) : Nice (fun X => Λ (M X)) := ⟨fun _ h => h1.1 _ (h2.1 _ h), fun k X => by
  show Λ (M (k • X)) = k • Λ (M X)
  rw [h2.2, h1.2]⟩
theorem nice_act (q : Quaternion ℝ) (hq : Quaternion.normSq q = 1) (v : Vec) (hv : dot v v < 1) : Nice (act q v) := nice_comp (Λ := boost v) (M := rot q) (nice_boost v hv) (nice_rot q hq)

theorem dir_smul (k : ℝ) (hk : 0 < k) (X : Four) : dir (k • X) = dir X := by
  unfold dir
  show (k * X.1)⁻¹ • (k • X.2) = X.1⁻¹ • X.2
  rw [smul_smul]
  congr 1
  rw [mul_inv]
  field_simp

theorem T_T {Λ M : Four → Four} (h1 : Nice Λ) (h2 : Nice M) (f : Vec → ℝ) : SEq (T Λ (T M f)) (T (fun X => M (Λ X)) f) := by
  intro r hr
  have hf := h1.1 _ (future_null hr)
  unfold T
  rw [null_dir hf, h2.2, dir_smul _ (inv_pos.mpr hf.1)]
  show (Λ (null r)).1 * (((Λ (null r)).1)⁻¹ * (M (Λ (null r))).1 * _) = _
  have := hf.1.ne'
  field_simp

theorem T_congr {Λ : Four → Four} (h1 : Nice Λ) {f g : Vec → ℝ} (h : SEq f g) : SEq (T Λ f) (T Λ g) := by
  intro r hr
  unfold T
  rw [h _ (dir_sphere (h1.1 _ (future_null hr)))]

theorem T_of_eq {Λ M : Four → Four} (h : ∀ X, Λ X = M X) (f : Vec → ℝ) : T Λ f = T M f := by
  have : Λ = M := funext h
  rw [this]

theorem T_id (f : Vec → ℝ) : T (fun X => X) f = f := by
  funext r
  unfold T dir null
  simp

theorem _root_.Verif.Spec.Bms.SEq.refl (f : Vec → ℝ) : SEq f f := fun _ _ => rfl
theorem _root_.Verif.Spec.Bms.SEq.symm {f g : Vec → ℝ} (h : SEq f g) : SEq g f := fun r hr => (h r hr).symm
theorem _root_.Verif.Spec.Bms.SEq.trans {f g k : Vec → ℝ} (h : SEq f g) (h' : SEq g k) : SEq f k := fun r hr => (h r hr).trans (h' r hr)

theorem rotFirst_normal : RotFirst lorentzNormal := by unfold RotFirst; decide

theorem transformSuper_eq (ext : Ext) (he : SvdOk ext) (S : Super) (L : Lorentz) (h : LOk L) :
    ∃ S', transformSuper ext S L = .ok S' ∧ S'.ell = L.ellMax ∧ SEq S'.f (T (fun X => rot (star L.q) (boost (-leftV L) X)) S.f) := by
  have hs := unit_star h.1
  have hv : dot (rotateVec (star L.q) (-leftV L)) (rotateVec (star L.q) (-leftV L)) < 1 := by
    rw [rotateVec_dot _ hs.1, dot_neg_self]
    exact leftV_lt L h
  unfold transformSuper
  rw [inverse_eq ext he L h, ok_bind]
  refine ⟨_, rfl, rfl, ?_⟩
  intro r hr
  have hvel : velFor lorentzNormal (star L.q) (rotateVec (star L.q) (-leftV L)) = rotateVec (star L.q) (-leftV L) := if_pos rotFirst_normal
  simp only [made, Option.getD_some, hvel]
  obtain ⟨e1, e2⟩ := grid_eq (star L.q) _ r hs.1 hv hr
  rw [e2, e1]
  simp only [T]
  rw [← act_inv _ _ h.1.1]

theorem mul_eq (ext : Ext) (he : SvdOk ext) (L1 L2 : Lorentz) (h1 : LOk L1) (h2 : LOk L2) :
    ∃ L, L1.mul ext L2 = .ok L ∧ Rotor L.q ∧ dot L.v L.v < 1 ∧ ∀ X, act L.q L.v X = act L2.q (leftV L2) (act L1.q (leftV L1) X) := by
  have hv1 := leftV_lt L1 h1
  have hv2 := leftV_lt L2 h2
  have hd : (Bm (leftV L2) * Mq L2.q * (Bm (leftV L1) * Mq L1.q)).det = 1 := by
    rw [Matrix.det_mul, Matrix.det_mul, Matrix.det_mul, Bm_det _ hv1, Bm_det _ hv2, Mq_det _ h1.1.1, Mq_det _ h2.1.1]
    simp
  obtain ⟨p, hp, -, ⟨w, hw, -, hA⟩, -⟩ := svd_parts ext he _ hd
  unfold Lorentz.mul
  rw [spin_left L1 h1, ok_bind, spin_left L2 h2, ok_bind, hA, spinToLorentz_any ext he p w hp hw]
  have hvel : velFor lorentzNormal p w = w := if_pos rotFirst_normal
  refine ⟨_, rfl, fixSign_unit p hp, ?_, ?_⟩
  · show dot (velFor lorentzNormal p w) (velFor lorentzNormal p w) < 1
    rw [hvel]
    exact hw
  · intro X
    show act (fixSign p) (velFor lorentzNormal p w) X = _
    rw [hvel]
    have hfix : rot (fixSign p) X = rot p X := by
      unfold fixSign
      split_ifs with h
      · rw [h, rot_neg]
      · rfl
    unfold act
    rw [hfix]
    apply Hm_inj
    have hC (v : Vec) (q : Quaternion ℝ) (hv : dot v v < 1) (hq : Quaternion.normSq q = 1) (Y : Four) : Hm (boost v (rot q Y)) = ((Bm v * Mq q)ᴴ)⁻¹ * Hm Y * (Bm v * Mq q)⁻¹ := by
      have e1 : (Bm v * Mq q)⁻¹ = Mq (star q) * Bm (-v) := by
        apply Matrix.inv_eq_right_inv
        rw [Matrix.mul_assoc, ← Matrix.mul_assoc (Mq q), Mq_mul_star q hq, Matrix.one_mul, Bm_mul_neg v hv]
      have e2 : ((Bm v * Mq q)ᴴ)⁻¹ = Bm (-v) * Mq q := by
        rw [← Matrix.conjTranspose_nonsing_inv, e1, Matrix.conjTranspose_mul, Bm_herm, Mq_star, Matrix.conjTranspose_conjTranspose]
      rw [e1, e2, Hm_boost v hv, Hm_rot q hq]
      simp only [Matrix.mul_assoc]
    rw [hC w p hw hp, hC _ _ hv2 h2.1.1, hC _ _ hv1 h1.1.1, ← hA]
    rw [Matrix.mul_inv_rev, Matrix.conjTranspose_mul, Matrix.mul_inv_rev]
    simp only [Matrix.mul_assoc]

end Verif.Lemmas.Bms
