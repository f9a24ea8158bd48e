import Verif.Lemmas.BmsReorder

/-!
# The group element of a BMS transformation
-/

namespace Verif.Lemmas.Bms

open Verif Verif.Bms Verif.AbdTransform Verif.Spec.Bms Verif.Props.AbdTransform

/-- The inverse of `act q v`. -/
noncomputable def actInv (q : Quaternion ℝ) (v : Vec) (X : Four) : Four := rot (star q) (boost (-v) X)

theorem act_actInv (q : Quaternion ℝ) (v : Vec) (hq : Quaternion.normSq q = 1) (hv : dot v v < 1) (X : Four) : act q v (actInv q v X) = X := by
  unfold act actInv
  rw [rot_rot_star q hq, boost_boost_neg v hv]

theorem actInv_act (q : Quaternion ℝ) (v : Vec) (hq : Quaternion.normSq q = 1) (hv : dot v v < 1) (X : Four) : actInv q v (act q v X) = X := by
  unfold act actInv
  rw [boost_neg_boost v hv, rot_star_rot q hq]

theorem nice_actInv (q : Quaternion ℝ) (v : Vec) (hq : Quaternion.normSq q = 1) (hv : dot v v < 1) : Nice (actInv q v) :=
  nice_comp (Λ := rot (star q)) (M := boost (-v)) (nice_rot _ (by rw [normSq_star]; exact hq)) (nice_boost _ (by rwa [dot_neg_self]))

theorem nice_id : Nice (fun X => X) := ⟨fun _ h => h, fun _ _ => rfl⟩

/-- Parts of an order. -/
theorem lorentz_nice (o : Order) (q : Quaternion ℝ) (v : Vec) (hq : Quaternion.normSq q = 1) (hv : dot v v < 1) : Nice (lorentz o q v) := by
  induction o with
  | nil => exact nice_id
  | cons n o ih =>
    rcases n with _ | _ | _ | n
    · exact ih
    · exact nice_comp (Λ := lorentz o q v) (M := rot q) ih (nice_rot q hq)
    · exact nice_comp (Λ := lorentz o q v) (M := boost v) ih (nice_boost v hv)
    · exact ih

theorem lorentzInv_nice (o : Order) (q : Quaternion ℝ) (v : Vec) (hq : Quaternion.normSq q = 1) (hv : dot v v < 1) : Nice (lorentzInv o q v) := by
  have hs : Quaternion.normSq (star q) = 1 := by rw [normSq_star]; exact hq
  have hn : dot (-v) (-v) < 1 := by rwa [dot_neg_self]
  induction o with
  | nil => exact nice_id
  | cons n o ih =>
    rcases n with _ | _ | _ | n
    · exact ih
    · exact nice_comp (Λ := rot (star q)) (M := lorentzInv o q v) (nice_rot _ hs) ih
    · exact nice_comp (Λ := boost (-v)) (M := lorentzInv o q v) (nice_boost _ hn) ih
    · exact ih

theorem lorentz_lorentzInv (o : Order) (q : Quaternion ℝ) (v : Vec) (hq : Quaternion.normSq q = 1) (hv : dot v v < 1) (X : Four) : lorentz o q v (lorentzInv o q v X) = X := by
  induction o with
  | nil => rfl
  | cons n o ih =>
    rcases n with _ | _ | _ | n
    · exact ih
    · show lorentz o q v (rot q (rot (star q) (lorentzInv o q v X))) = X
      rw [rot_rot_star q hq, ih]
    · show lorentz o q v (boost v (boost (-v) (lorentzInv o q v X))) = X
      rw [boost_boost_neg v hv, ih]
    · exact ih

theorem lorentzInv_lorentz (o : Order) (q : Quaternion ℝ) (v : Vec) (hq : Quaternion.normSq q = 1) (hv : dot v v < 1) (X : Four) : lorentzInv o q v (lorentz o q v X) = X := by
  induction o generalizing X with
  | nil => rfl
  | cons n o ih =>
    rcases n with _ | _ | _ | n
    · exact ih X
    · show rot (star q) (lorentzInv o q v (lorentz o q v (rot q X))) = X
      rw [ih, rot_star_rot q hq]
    · show boost (-v) (lorentzInv o q v (lorentz o q v (boost v X))) = X
      rw [ih, boost_neg_boost v hv]
    · exact ih X

theorem lorentz_act (o : Order) (ho : o ∈ orders) (q : Quaternion ℝ) (v : Vec) (hq : Quaternion.normSq q = 1) (X : Four) :
    lorentz o q v X = open Classical in act q (if RotFirst o then v else rotateVec q v) X := by
  simp only [orders, List.mem_cons, List.not_mem_nil, or_false] at ho
  rcases ho with rfl | rfl | rfl | rfl | rfl | rfl
  · rw [if_pos (rotFirst_R _ (by simp))]; rfl
  · rw [if_pos (rotFirst_R _ (by simp))]; rfl
  · rw [if_pos (rotFirst_R _ (by simp))]; rfl
  · rw [if_neg (rotFirst_B _ (by simp))]; exact rot_boost q hq v X
  · rw [if_neg (rotFirst_B _ (by simp))]; exact rot_boost q hq v X
  · rw [if_neg (rotFirst_B _ (by simp))]; exact rot_boost q hq v X

theorem lorentz_normal (b : BMS) (hb : Valid b) (X : Four) : lorentz b.order b.q b.v X = act b.q (normalV b) X := lorentz_act b.order hb.2.2.2.2 b.q b.v hb.1.1 X

theorem toOld_congr {S S' : Vec → ℝ} {Λ Λ' : Four → Four} (h1 : Nice Λ) (hS : SEq S S') (hΛ : ∀ X, Λ X = Λ' X) (p : Scri) (hp : Sphere p.2) : toOld S Λ p = toOld S' Λ' p := by
  unfold toOld
  rw [← hΛ]
  simp only
  rw [hS _ (dir_sphere (h1.1 _ (future_null hp)))]

theorem element_eq (b : BMS) (hb : Valid b) (p : Scri) : element b p = toOld (superOf b) (act b.q (normalV b)) p := by
  unfold element
  have : lorentz b.order b.q b.v = act b.q (normalV b) := funext (lorentz_normal b hb)
  rw [this]

/-- Composition. -/
theorem toOld_toOld (S1 S2 : Vec → ℝ) {Λ1 Λ2 M2 : Four → Four} (h1 : Nice Λ1) (h2 : Nice Λ2) (hM : Nice M2) (hinv : ∀ X, M2 (Λ2 X) = X) (p : Scri) (hp : Sphere p.2) :
    toOld S2 Λ2 (toOld S1 Λ1 p) = toOld (fun r => T M2 S1 r + S2 r) (fun X => Λ2 (Λ1 X)) p := by
  obtain ⟨u, r⟩ := p
  have hX := h1.1 _ (future_null hp)
  have hZ := h2.1 _ hX
  have hk := hX.1.ne'
  have hz := hZ.1.ne'
  unfold toOld
  simp only
  rw [null_dir hX, h2.2, dir_smul _ (inv_pos.mpr hX.1)]
  unfold T
  rw [null_dir hZ, hM.2, hinv, dir_smul _ (inv_pos.mpr hZ.1)]
  refine Prod.ext ?_ rfl
  generalize Λ1 (null r) = X at *
  generalize Λ2 X = Z at *
  show (u / X.1 + S1 (dir X)) / (X.1⁻¹ * Z.1) + _ = u / Z.1 + (Z.1⁻¹ * X.1 * S1 (dir X) + _)
  field_simp
  ring

theorem toOld_id (p : Scri) : toOld (fun _ => 0) (fun X => X) p = p := by
  unfold toOld null dir
  simp

theorem toOld_sphere (S : Vec → ℝ) {Λ : Four → Four} (h : Nice Λ) (p : Scri) (hp : Sphere p.2) : Sphere (toOld S Λ p).2 := dir_sphere (h.1 _ (future_null hp))

theorem Is.ok {b : BMS} {q v f o ell} (h : Is b q v f o ell) (hq : Rotor q) (hv : dot v v < 1) (h1 : 1 ≤ ell) (ho : o ∈ orders) : Valid b := by
  obtain ⟨rfl, rfl, -, rfl, rfl, h6⟩ := h
  exact ⟨hq, hv, h1, h6.le, ho⟩

theorem superOf_T (b : BMS) : superOf b = T (lorentzInv (before b.order) b.q b.v) b.S.f := rfl

theorem superOf_normal (b : BMS) (h : b.order = normalOrder) : superOf b = b.S.f := by
  rw [superOf_T, h]
  exact T_id b.S.f

theorem normalV_normal (b : BMS) (h : b.order = normalOrder) : normalV b = b.v := by
  unfold normalV
  rw [h]
  exact if_pos rotFirst_normal3

/-- The velocity in the order of the transformation, from the one in the normal order. -/
theorem velFor_normalV (b : BMS) (hb : Valid b) : velFor b.order b.q (normalV b) = b.v := by
  classical
  unfold velFor normalV
  split_ifs
  · rfl
  · exact rotate_star_rotate b.q hb.1.1 b.v

theorem normalV_velFor (c : BMS) (q : Quaternion ℝ) (v : Vec) (hq : Quaternion.normSq q = 1) (h1 : c.q = q) (h2 : c.v = velFor c.order q v) : normalV c = v := by
  classical
  unfold normalV
  rw [h1, h2]
  unfold velFor
  split_ifs
  · rfl
  · exact rotate_rotate_star q hq v

theorem velFor_lt (o : Order) (q : Quaternion ℝ) (v : Vec) (hq : Quaternion.normSq q = 1) (hv : dot v v < 1) : dot (velFor o q v) (velFor o q v) < 1 := by
  classical
  unfold velFor
  split_ifs
  · exact hv
  · rw [rotateVec_dot _ (by rw [normSq_star]; exact hq)]
    exact hv

theorem mem_three (o : Order) (ho : o ∈ orders) : .supertranslation ∈ o ∧ .frame_rotation ∈ o ∧ .boost_velocity ∈ o := by
  simp only [orders, List.mem_cons, List.not_mem_nil, or_false] at ho
  rcases ho with rfl | rfl | rfl | rfl | rfl | rfl <;> decide

/-- Reordering: the parameters of the result. -/
theorem reorder_params (ext : Ext) (he : SvdOk ext) (b : BMS) (hb : Valid b) (o : Order) (ho : o ∈ orders) (hr : Room b o) :
    ∃ c, b.reorder ext o = .ok c ∧ Valid c ∧ c.order = o ∧ c.ellMax = b.ellMax ∧ c.q = b.q ∧ normalV c = normalV b ∧ SEq (superOf c) (superOf b) ∧
      (∀ f, SEq (superOf b) f → SEq c.S.f (T (lorentz (before o) b.q c.v) f)) := by
  obtain ⟨n, e1, hn⟩ := toNormal_eq ext he b hb (fun h => by
    rcases hr with hr | hr
    · exact hr
    · exact absurd h hr.1)
  have hV := normalV_lt b hb
  have hnok := hn.ok hb.1 hV hb.2.2.1 normal_mem
  obtain ⟨n1, n2, n3, n4, n5, n6⟩ := hn
  obtain ⟨c, e2, hc⟩ := fromNormal_eq ext he n hnok n4 o ho (fun h => by
    rcases hr with hr | hr
    · rw [n5]; exact hr
    · exact absurd hr.2 h)
  have hvlt := velFor_lt o n.q n.v hnok.1.1 hnok.2.1
  have hcok := hc.ok hnok.1 hvlt hnok.2.2.1 ho
  obtain ⟨c1, c2, c3, c4, c5, c6⟩ := hc
  have hnice := lorentz_nice (before o) n.q (velFor o n.q n.v) hnok.1.1 hvlt
  refine ⟨c, ?_, hcok, c4, c5.trans n5, c1.trans n1, ?_, ?_, ?_⟩
  · unfold BMS.reorder
    rw [if_neg (not_not.mpr (mem_three o ho)), e1, ok_bind, e2]
  · rw [← n2]
    exact normalV_velFor c n.q n.v hnok.1.1 c1 (by rw [c4]; exact c2)
  · rw [superOf_T, c4, c1, c2]
    have hI := lorentzInv_nice (before o) n.q (velFor o n.q n.v) hnok.1.1 hvlt
    refine (T_congr hI c3).trans ((T_T hI hnice n.S.f).trans ?_)
    rw [T_of_eq (M := fun X => X) (fun X => lorentz_lorentzInv _ _ _ hnok.1.1 hvlt X), T_id]
    exact n3
  · intro f hf
    rw [c2, ← n1]
    exact c3.trans (T_congr hnice (n3.trans hf))

end Verif.Lemmas.Bms
