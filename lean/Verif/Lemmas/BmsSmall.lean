import Verif.Lemmas.BmsGroup

/-!
# Reordering fails for a small `ell_max`
-/

namespace Verif.Lemmas.Bms

open Verif Verif.Bms Verif.AbdTransform Verif.Spec.Bms Verif.Props.AbdTransform

theorem init_small (q : Quaternion ℝ) (v : Vec) (S : Super) (o : Order) (ell : Int) (hS : ell < S.ell) (hq : Quaternion.normSq q = 1) (hv : dot v v < 1) (h1 : 1 ≤ ell) :
    bmsInit (some q) (some v) (some S) o ell = .error .valueError :=
  bmsInit_fails _ _ S o ell hS (fun p hp => by cases hp; exact hq) (fun w hw => by cases hw; exact hv) h1

theorem toNormal_small (ext : Ext) (he : SvdOk ext) (b : BMS) (hb : Valid b) (h : b.order = [.boost_velocity, .frame_rotation, .supertranslation]) (h12 : b.ellMax < 12) :
    b.toNormal ext = .error .valueError := by
  obtain ⟨hq, hv, h1, hS, ho⟩ := hb
  have h0 : 0 ≤ b.ellMax := by omega
  rcases b with ⟨q, v, S, ob, ell⟩
  simp only at *
  subst h
  have hr := reorder_eq ext he (made q v [.boost_velocity, .frame_rotation, .supertranslation] ell) (lok _ _ _ _ hq hv h0) normalOrder (by decide) (by decide) (by rw [made_order _ ho]; decide)
  rw [leftV_made q v _ ho ell, if_neg (rotFirst_B _ (by simp)), velFor_R _ rotFirst_normal3] at hr
  change _ = Except.ok (made q (rotateVec q v) normalOrder) at hr
  have hV : dot (rotateVec q v) (rotateVec q v) < 1 := by rw [rotateVec_dot _ hq.1]; exact hv
  obtain ⟨S', e, hl, -⟩ := transformSuper_eq ext he S (made q (rotateVec q v) normalOrder) (lok _ _ _ _ hq hV (by norm_num))
  have hlt : ell < S'.ell := by rw [hl]; exact h12
  show (do
      let L ← lorentzInit (some q) (some v) [.boost_velocity, .frame_rotation, .supertranslation] ell
      let L' ← L.reorder ext normalOrder
      let S' ← transformSuper ext S L'
      bmsInit (some L'.q) (some L'.v) (some S') normalOrder ell) = _
  rw [made_ok q v _ ell hq.1 hv h0, ok_bind, hr, ok_bind, e, ok_bind]
  exact init_small _ _ _ _ _ hlt hq.1 hV h1

theorem fromNormal_small (ext : Ext) (he : SvdOk ext) (b : BMS) (hb : Valid b) (hn : b.order = normalOrder) (o : Order) (ho : o ∈ orders) (hh : o.head? ≠ some .supertranslation) (h12 : b.ellMax < 12) :
    b.fromNormal ext o = .error .valueError := by
  obtain ⟨hq, hv, h1, hS, -⟩ := hb
  have h0 : 0 ≤ b.ellMax := by omega
  have hs := unit_star hq
  have hV : dot (rotateVec (star b.q) b.v) (rotateVec (star b.q) b.v) < 1 := by rw [rotateVec_dot _ hs.1]; exact hv
  rcases b with ⟨q, v, S, ob, ell⟩
  simp only at *
  subst hn
  have hno := normal_mem
  -- a transformation from a matrix has `ell_max` 12
  have inv (L : Lorentz) (hL : LOk L) : ∃ L', L.inverse ext = .ok L' ∧ LOk L' ∧ L'.ellMax = 12 := by
    refine ⟨_, inverse_eq ext he L hL none, ⟨unit_star hL.1, velFor_lt _ _ _ (unit_star hL.1).1 ?_, by norm_num [made]⟩, rfl⟩
    rw [rotateVec_dot _ (unit_star hL.1).1, dot_neg_self]
    exact leftV_lt L hL
  have ts (L : Lorentz) (hL : LOk L) (h : L.ellMax = 12) : ∃ S', transformSuper ext S L = .ok S' ∧ ell < S'.ell := by
    obtain ⟨S', e, hl, -⟩ := transformSuper_eq ext he S L hL
    exact ⟨S', e, by rw [hl, h]; exact h12⟩
  simp only [orders, List.mem_cons, List.not_mem_nil, or_false] at ho
  rcases ho with rfl | rfl | rfl | rfl | rfl | rfl
  · exact absurd rfl hh
  · obtain ⟨L', e1, k1, k2⟩ := inv (made q 0 normalOrder ell) (lok _ _ _ _ hq zero_lt h0)
    obtain ⟨S', e2, k3⟩ := ts L' k1 k2
    show (do
      let L ← lorentzInit (some q) none normalOrder ell
      let L ← L.inverse ext
      let S' ← transformSuper ext S L
      bmsInit (some q) (some v) (some S') [.frame_rotation, .supertranslation, .boost_velocity] ell) = _
    rw [made_rotation q _ ell hq.1 h0, ok_bind, e1, ok_bind, e2, ok_bind]
    exact init_small _ _ _ _ _ k3 hq.1 hv h1
  · obtain ⟨L', e1, k1, k2⟩ := inv (made q v normalOrder ell) (lok _ _ _ _ hq hv h0)
    obtain ⟨S', e2, k3⟩ := ts L' k1 k2
    show (do
      let L ← lorentzInit (some q) (some v) normalOrder ell
      let L ← L.inverse ext
      let S' ← transformSuper ext S L
      bmsInit (some q) (some v) (some S') [.frame_rotation, .boost_velocity, .supertranslation] ell) = _
    rw [made_ok q v _ ell hq.1 hv h0, ok_bind, e1, ok_bind, e2, ok_bind]
    exact init_small _ _ _ _ _ k3 hq.1 hv h1
  · exact absurd rfl hh
  · have hr := reorder_eq ext he (made q v normalOrder ell) (lok _ _ _ _ hq hv h0) [.boost_velocity, .supertranslation, .frame_rotation] (by decide) (by decide) (by rw [made_order _ hno]; decide)
    rw [leftV_made q v _ hno ell, if_pos rotFirst_normal3, velFor_B _ (rotFirst_B _ (by simp))] at hr
    change _ = Except.ok (made q (rotateVec (star q) v) [.boost_velocity, .supertranslation, .frame_rotation]) at hr
    obtain ⟨L', e1, k1, k2⟩ := inv (made 1 (rotateVec (star q) v) [.boost_velocity, .frame_rotation]) (lok _ _ _ _ unit_one hV (by norm_num))
    obtain ⟨S', e2, k3⟩ := ts L' k1 k2
    show (do
      let L ← lorentzInit (some q) (some v) normalOrder ell
      let L' ← L.reorder ext [.boost_velocity, .supertranslation, .frame_rotation]
      let L ← lorentzInit none (some L'.v) L'.order L'.ellMax
      let L ← L.inverse ext
      let S' ← transformSuper ext S L
      bmsInit (some L'.q) (some L'.v) (some S') [.boost_velocity, .supertranslation, .frame_rotation] ell) = _
    rw [made_ok q v _ ell hq.1 hv h0, ok_bind, hr, ok_bind]
    show (do
      let L ← lorentzInit none (some (rotateVec (star q) v)) [.boost_velocity, .frame_rotation] 12
      let L ← L.inverse ext
      let S' ← transformSuper ext S L
      bmsInit (some q) (some (rotateVec (star q) v)) (some S') [.boost_velocity, .supertranslation, .frame_rotation] ell) = _
    rw [made_boost _ _ 12 hV (by norm_num), ok_bind, e1, ok_bind, e2, ok_bind]
    exact init_small _ _ _ _ _ k3 hq.1 hV h1
  · have hr := reorder_eq ext he (made q v normalOrder ell) (lok _ _ _ _ hq hv h0) [.boost_velocity, .frame_rotation, .supertranslation] (by decide) (by decide) (by rw [made_order _ hno]; decide)
    rw [leftV_made q v _ hno ell, if_pos rotFirst_normal3, velFor_B _ (rotFirst_B _ (by simp))] at hr
    change _ = Except.ok (made q (rotateVec (star q) v) [.boost_velocity, .frame_rotation, .supertranslation]) at hr
    obtain ⟨L', e1, k1, k2⟩ := inv (made q (rotateVec (star q) v) [.boost_velocity, .frame_rotation, .supertranslation]) (lok _ _ _ _ hq hV (by norm_num))
    obtain ⟨S', e2, k3⟩ := ts L' k1 k2
    show (do
      let L ← lorentzInit (some q) (some v) normalOrder ell
      let L' ← L.reorder ext [.boost_velocity, .frame_rotation, .supertranslation]
      let L ← L'.inverse ext
      let S' ← transformSuper ext S L
      bmsInit (some L'.q) (some L'.v) (some S') [.boost_velocity, .frame_rotation, .supertranslation] ell) = _
    rw [made_ok q v _ ell hq.1 hv h0, ok_bind, hr, ok_bind, e1, ok_bind, e2, ok_bind]
    exact init_small _ _ _ _ _ k3 hq.1 hV h1

end Verif.Lemmas.Bms
