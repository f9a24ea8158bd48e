import Verif.Lemmas.BmsOps

/-!
# Reordering a BMS transformation, in terms of the parameters
-/

namespace Verif.Lemmas.Bms

open Verif Verif.Bms Verif.AbdTransform Verif.Spec.Bms Verif.Props.AbdTransform

/-- The parameters of `b` are these; the supertranslation on the sphere. -/
def Is (b : BMS) (q : Quaternion ℝ) (v : Vec) (f : Vec → ℝ) (o : Order) (ell : Int) : Prop :=
  b.q = q ∧ b.v = v ∧ SEq b.S.f f ∧ b.order = o ∧ b.ellMax = ell ∧ b.S.ell = ell

theorem bmsInit_ok (q : Quaternion ℝ) (v : Vec) (S : Super) (o : Order) (ell : Int) (hq : Quaternion.normSq q = 1) (hv : dot v v < 1) (h1 : 1 ≤ ell) (hS : S.ell ≤ ell) :
    bmsInit (some q) (some v) (some S) o ell = .ok { q := q, v := v, S := { ell := ell, f := S.f }, order := complete normalOrder o, ellMax := ell } := by
  have e3 : ∃ w', TransformKwargs.workingEllMax {} ell (max 1 S.ell) = .ok w' := by
    unfold TransformKwargs.workingEllMax
    refine ⟨_, if_neg ?_⟩
    simp
    omega
  obtain ⟨w', e3⟩ := e3
  unfold bmsInit
  simp only [Option.getD_some]
  rw [e3, ok_bind, rotor_ok q hq _ rfl, ok_bind, velocity_ok v hv _ rfl, ok_bind, if_neg (by omega), getD_vec]
  rfl

theorem bmsInit_fails (q : Option (Quaternion ℝ)) (v : Option Vec) (S : Super) (o : Order) (ell : Int) (hS : ell < S.ell)
    (hq : ∀ p, q = some p → Quaternion.normSq p = 1) (hv : ∀ w, v = some w → dot w w < 1) (h1 : 1 ≤ ell) : bmsInit q v (some S) o ell = .error .valueError := by
  have e3 : ∃ w', TransformKwargs.workingEllMax {} ell (max 1 S.ell) = .ok w' := by
    unfold TransformKwargs.workingEllMax
    refine ⟨_, if_neg ?_⟩
    simp
    omega
  obtain ⟨w', e3⟩ := e3
  unfold bmsInit
  simp only [Option.getD_some]
  rw [e3, ok_bind]
  have e1 : ∃ R, TransformKwargs.rotor { frame_rotation := q.map components, boost_velocity := v.map List.ofFn } = .ok R := by
    rcases q with _ | p
    · exact ⟨_, rotor_none _ rfl⟩
    · exact ⟨_, rotor_ok p (hq p rfl) _ rfl⟩
  have e2 : ∃ w, TransformKwargs.velocity { frame_rotation := q.map components, boost_velocity := v.map List.ofFn } = .ok w := by
    rcases v with _ | w
    · exact ⟨_, velocity_none _ rfl⟩
    · exact ⟨_, velocity_ok w (hv w rfl) _ rfl⟩
  obtain ⟨R, e1⟩ := e1
  obtain ⟨w, e2⟩ := e2
  rw [e1, ok_bind, e2, ok_bind, if_pos (by omega)]

theorem bmsInit_is (q : Quaternion ℝ) (v : Vec) (S : Super) (o : Order) (ell : Int) (hq : Quaternion.normSq q = 1) (hv : dot v v < 1) (h1 : 1 ≤ ell) (hS : S.ell ≤ ell) (ho : o ∈ orders)
    (f : Vec → ℝ) (hf : SEq S.f f) : ∃ b, bmsInit (some q) (some v) (some S) o ell = .ok b ∧ Is b q v f o ell := by
  refine ⟨_, bmsInit_ok q v S o ell hq hv h1 hS, rfl, rfl, hf, ?_, rfl, rfl⟩
  simp only [orders, List.mem_cons, List.not_mem_nil, or_false] at ho
  rcases ho with rfl | rfl | rfl | rfl | rfl | rfl <;> rfl

theorem normal_mem : normalOrder ∈ orders := by decide

theorem lok (q : Quaternion ℝ) (v : Vec) (o : Order) (ell : Int) (hq : Rotor q) (hv : dot v v < 1) (he : 0 ≤ ell) : LOk (made q v o ell) := ⟨hq, hv, he⟩

theorem made_ok (q : Quaternion ℝ) (v : Vec) (o : Order) (ell : Int) (hq : Quaternion.normSq q = 1) (hv : dot v v < 1) (he : 0 ≤ ell) : lorentzInit (some q) (some v) o ell = .ok (made q v o ell) :=
  lorentzInit_ok q v o ell hq hv he

theorem made_rotation (q : Quaternion ℝ) (o : Order) (ell : Int) (hq : Quaternion.normSq q = 1) (he : 0 ≤ ell) : lorentzInit (some q) none o ell = .ok (made q 0 o ell) :=
  lorentzInit_rotation q o ell hq he

theorem made_boost (v : Vec) (o : Order) (ell : Int) (hv : dot v v < 1) (he : 0 ≤ ell) : lorentzInit none (some v) o ell = .ok (made 1 v o ell) :=
  lorentzInit_boost v o ell hv he

/-- Whether the rotation is listed before the boost. -/
theorem rotFirst_iff (o : Order) (ho : o ∈ orders) (q : Quaternion ℝ) (v : Vec) (ell : Int) : RotFirst (made q v o ell).order ↔ RotFirst o := by
  simp only [orders, List.mem_cons, List.not_mem_nil, or_false] at ho
  show (complete lorentzNormal (o.erase .supertranslation)).idxOf .frame_rotation < (complete lorentzNormal (o.erase .supertranslation)).idxOf .boost_velocity ↔ o.idxOf .frame_rotation < o.idxOf .boost_velocity
  clear q v ell
  rcases ho with rfl | rfl | rfl | rfl | rfl | rfl <;> decide

theorem made_order (o : Order) (ho : o ∈ orders) (q : Quaternion ℝ) (v : Vec) (ell : Int) :
    (made q v o ell).order = if o.idxOf .frame_rotation < o.idxOf .boost_velocity then [.frame_rotation, .boost_velocity] else [.boost_velocity, .frame_rotation] := by
  simp only [orders, List.mem_cons, List.not_mem_nil, or_false] at ho
  show complete lorentzNormal (o.erase .supertranslation) = _
  clear q v ell
  rcases ho with rfl | rfl | rfl | rfl | rfl | rfl <;> decide

theorem leftV_made (q : Quaternion ℝ) (v : Vec) (o : Order) (ho : o ∈ orders) (ell : Int) : leftV (made q v o ell) = open Classical in if RotFirst o then v else rotateVec q v := by
  classical
  unfold leftV
  by_cases h : RotFirst o
  · rw [if_pos h, if_pos ((rotFirst_iff o ho q v ell).mpr h)]
    rfl
  · rw [if_neg h, if_neg (fun h' => h ((rotFirst_iff o ho q v ell).mp h'))]
    rfl

theorem unit_one : Rotor (1 : Quaternion ℝ) := by
  have h := fixSign_unit 1 (map_one _)
  unfold fixSign at h
  split_ifs at h <;> exact h

theorem star_one' : star (1 : Quaternion ℝ) = 1 := star_one _

theorem rotFirst_R (o : Order) : (o = [.supertranslation, .frame_rotation, .boost_velocity] ∨ o = [.frame_rotation, .supertranslation, .boost_velocity] ∨ o = [.frame_rotation, .boost_velocity, .supertranslation]) → RotFirst o := by
  unfold RotFirst
  rintro (rfl | rfl | rfl) <;> decide

theorem rotFirst_B (o : Order) : (o = [.supertranslation, .boost_velocity, .frame_rotation] ∨ o = [.boost_velocity, .supertranslation, .frame_rotation] ∨ o = [.boost_velocity, .frame_rotation, .supertranslation]) → ¬ RotFirst o := by
  unfold RotFirst
  rintro (rfl | rfl | rfl) <;> decide

theorem rotFirst_normal3 : RotFirst normalOrder := rotFirst_R _ (Or.inl rfl)

/-- Velocity in the normal order. -/
noncomputable def normalV (b : BMS) : Vec := open Classical in if RotFirst b.order then b.v else rotateVec b.q b.v

theorem normalV_lt (b : BMS) (h : Valid b) : dot (normalV b) (normalV b) < 1 := by
  unfold normalV
  split_ifs
  · exact h.2.1
  · rw [rotateVec_dot _ h.1.1]
    exact h.2.1

theorem boost_nzero (X : Four) : boost (-0) X = X := by rw [neg_zero, boost_zero]

theorem zero_lt : dot (0 : Vec) 0 < 1 := by simp [dot]

theorem toNormal_eq (ext : Ext) (he : SvdOk ext) (b : BMS) (hb : Valid b) (h12 : b.order = [.boost_velocity, .frame_rotation, .supertranslation] → 12 ≤ b.ellMax) :
    ∃ n, b.toNormal ext = .ok n ∧ Is n b.q (normalV b) (superOf b) normalOrder b.ellMax := by
  have hV := normalV_lt b hb
  obtain ⟨hq, hv, h1, hS, ho⟩ := hb
  have h0 : 0 ≤ b.ellMax := by omega
  have hsU := unit_star hq
  have hvneg : dot (-b.v) (-b.v) < 1 := by rwa [dot_neg_self]
  rcases b with ⟨q, v, S, o, ell⟩
  simp only at *
  have ho' := ho
  simp only [orders, List.mem_cons, List.not_mem_nil, or_false] at ho
  rcases ho with rfl | rfl | rfl | rfl | rfl | rfl
  · -- S R B
    have hn : normalV ⟨q, v, S, [.supertranslation, .frame_rotation, .boost_velocity], ell⟩ = v := if_pos (rotFirst_R _ (by simp))
    rw [hn]
    obtain ⟨n, e, hn⟩ := bmsInit_is q v S normalOrder ell hq.1 hv h1 hS normal_mem S.f (SEq.refl _)
    refine ⟨n, ?_, ?_⟩
    · rw [← e]; rfl
    · have : superOf ⟨q, v, S, [.supertranslation, .frame_rotation, .boost_velocity], ell⟩ = S.f := T_id S.f
      rw [this]
      exact hn
  · -- R S B
    have hn : normalV ⟨q, v, S, [.frame_rotation, .supertranslation, .boost_velocity], ell⟩ = v := if_pos (rotFirst_R _ (by simp))
    rw [hn]
    obtain ⟨S', e, hl, hf⟩ := transformSuper_eq ext he S (made q 0 [.frame_rotation, .supertranslation, .boost_velocity] ell) (lok _ _ _ _ hq zero_lt h0)
    rw [leftV_made q 0 _ ho' ell, if_pos (rotFirst_R _ (by simp))] at hf
    have hf' : SEq S'.f (superOf ⟨q, v, S, [.frame_rotation, .supertranslation, .boost_velocity], ell⟩) := hf.trans (by
      rw [T_of_eq (M := rot (star q)) (fun X => by rw [boost_nzero]; rfl)]
      exact SEq.refl _)
    obtain ⟨n, e2, hn⟩ := bmsInit_is q v S' normalOrder ell hq.1 hv h1 (le_of_eq hl) normal_mem _ hf'
    refine ⟨n, ?_, hn⟩
    rw [← e2]
    show (do
      let L ← lorentzInit (some q) none [.frame_rotation, .supertranslation, .boost_velocity] ell
      let S' ← transformSuper ext S L
      bmsInit (some q) (some v) (some S') normalOrder ell) = _
    rw [made_rotation q _ ell hq.1 h0, ok_bind, e, ok_bind]
  · -- R B S
    have hn : normalV ⟨q, v, S, [.frame_rotation, .boost_velocity, .supertranslation], ell⟩ = v := if_pos (rotFirst_R _ (by simp))
    rw [hn]
    obtain ⟨S', e, hl, hf⟩ := transformSuper_eq ext he S (made q v [.frame_rotation, .boost_velocity, .supertranslation] ell) (lok _ _ _ _ hq hv h0)
    rw [leftV_made q v _ ho' ell, if_pos (rotFirst_R _ (by simp))] at hf
    have hf' : SEq S'.f (superOf ⟨q, v, S, [.frame_rotation, .boost_velocity, .supertranslation], ell⟩) := hf
    obtain ⟨n, e2, hn⟩ := bmsInit_is q v S' normalOrder ell hq.1 hv h1 (le_of_eq hl) normal_mem _ hf'
    refine ⟨n, ?_, hn⟩
    rw [← e2]
    show (do
      let L ← lorentzInit (some q) (some v) [.frame_rotation, .boost_velocity, .supertranslation] ell
      let S' ← transformSuper ext S L
      bmsInit (some q) (some v) (some S') normalOrder ell) = _
    rw [made_ok q v _ ell hq.1 hv h0, ok_bind, e, ok_bind]
  · -- S B R
    have hn : normalV ⟨q, v, S, [.supertranslation, .boost_velocity, .frame_rotation], ell⟩ = rotateVec q v := if_neg (rotFirst_B _ (by simp))
    rw [hn] at hV ⊢
    have hr := reorder_eq ext he (made q v [.supertranslation, .boost_velocity, .frame_rotation] ell) (lok _ _ _ _ hq hv h0) normalOrder (by decide) (by decide) (by rw [made_order _ ho']; decide)
    rw [leftV_made q v _ ho' ell, if_neg (rotFirst_B _ (by simp))] at hr
    have hvel : velFor normalOrder q (rotateVec q v) = rotateVec q v := if_pos rotFirst_normal3
    change _ = Except.ok (made q (velFor normalOrder q (rotateVec q v)) normalOrder) at hr
    rw [hvel] at hr
    obtain ⟨n, e2, hn⟩ := bmsInit_is q (rotateVec q v) S normalOrder ell hq.1 hV h1 hS normal_mem S.f (SEq.refl _)
    refine ⟨n, ?_, ?_⟩
    · rw [← e2]
      show (do
        let L ← lorentzInit (some q) (some v) [.supertranslation, .boost_velocity, .frame_rotation] ell
        let L' ← L.reorder ext normalOrder
        bmsInit (some L'.q) (some L'.v) (some S) normalOrder ell) = _
      rw [made_ok q v _ ell hq.1 hv h0, ok_bind, hr, ok_bind]
      rfl
    · have : superOf ⟨q, v, S, [.supertranslation, .boost_velocity, .frame_rotation], ell⟩ = S.f := T_id S.f
      rw [this]
      exact hn
  · -- B S R
    have hn : normalV ⟨q, v, S, [.boost_velocity, .supertranslation, .frame_rotation], ell⟩ = rotateVec q v := if_neg (rotFirst_B _ (by simp))
    rw [hn] at hV ⊢
    have hr := reorder_eq ext he (made q v [.boost_velocity, .supertranslation, .frame_rotation] ell) (lok _ _ _ _ hq hv h0) normalOrder (by decide) (by decide) (by rw [made_order _ ho']; decide)
    rw [leftV_made q v _ ho' ell, if_neg (rotFirst_B _ (by simp))] at hr
    have hvel : velFor normalOrder q (rotateVec q v) = rotateVec q v := if_pos rotFirst_normal3
    change _ = Except.ok (made q (velFor normalOrder q (rotateVec q v)) normalOrder) at hr
    rw [hvel] at hr
    obtain ⟨S', e, hl, hf⟩ := transformSuper_eq ext he S (made 1 v [.boost_velocity, .supertranslation, .frame_rotation] ell) (lok _ _ _ _ unit_one hv h0)
    rw [leftV_made 1 v _ ho' ell, if_neg (rotFirst_B _ (by simp))] at hf
    have hf' : SEq S'.f (superOf ⟨q, v, S, [.boost_velocity, .supertranslation, .frame_rotation], ell⟩) := hf.trans (by
      rw [T_of_eq (M := boost (-v)) (fun X => by
        rw [rotateVec_one]
        show rot (star 1) (boost (-v) X) = _
        rw [star_one', rot_one])]
      exact SEq.refl _)
    obtain ⟨n, e2, hn⟩ := bmsInit_is q (rotateVec q v) S' normalOrder ell hq.1 hV h1 (le_of_eq hl) normal_mem _ hf'
    refine ⟨n, ?_, hn⟩
    rw [← e2]
    show (do
      let L ← lorentzInit (some q) (some v) [.boost_velocity, .supertranslation, .frame_rotation] ell
      let L' ← L.reorder ext normalOrder
      let L ← lorentzInit none (some v) [.boost_velocity, .supertranslation, .frame_rotation] ell
      let S' ← transformSuper ext S L
      bmsInit (some L'.q) (some L'.v) (some S') normalOrder ell) = _
    rw [made_ok q v _ ell hq.1 hv h0, ok_bind, hr, ok_bind, made_boost v _ ell hv h0, ok_bind, e, ok_bind]
    rfl
  · -- B R S
    have hn : normalV ⟨q, v, S, [.boost_velocity, .frame_rotation, .supertranslation], ell⟩ = rotateVec q v := if_neg (rotFirst_B _ (by simp))
    rw [hn] at hV ⊢
    have hr := reorder_eq ext he (made q v [.boost_velocity, .frame_rotation, .supertranslation] ell) (lok _ _ _ _ hq hv h0) normalOrder (by decide) (by decide) (by rw [made_order _ ho']; decide)
    rw [leftV_made q v _ ho' ell, if_neg (rotFirst_B _ (by simp))] at hr
    have hvel : velFor normalOrder q (rotateVec q v) = rotateVec q v := if_pos rotFirst_normal3
    change _ = Except.ok (made q (velFor normalOrder q (rotateVec q v)) normalOrder) at hr
    rw [hvel] at hr
    obtain ⟨S', e, hl, hf⟩ := transformSuper_eq ext he S (made q (rotateVec q v) normalOrder) (lok _ _ _ _ hq hV (by norm_num))
    rw [leftV_made q _ _ normal_mem _, if_pos rotFirst_normal3] at hf
    have hf' : SEq S'.f (superOf ⟨q, v, S, [.boost_velocity, .frame_rotation, .supertranslation], ell⟩) := hf.trans (by
      rw [T_of_eq (M := fun X => boost (-v) (rot (star q) X)) (fun X => by
        show rot (star q) (boost (-rotateVec q v) X) = _
        rw [rot_boost _ hsU.1, rotateVec_neg, rotate_star_rotate q hq.1])]
      exact SEq.refl _)
    have hl' : S'.ell ≤ ell := by
      rw [hl]
      exact h12 rfl
    obtain ⟨n, e2, hn⟩ := bmsInit_is q (rotateVec q v) S' normalOrder ell hq.1 hV h1 hl' normal_mem _ hf'
    refine ⟨n, ?_, hn⟩
    rw [← e2]
    show (do
      let L ← lorentzInit (some q) (some v) [.boost_velocity, .frame_rotation, .supertranslation] ell
      let L' ← L.reorder ext normalOrder
      let S' ← transformSuper ext S L'
      bmsInit (some L'.q) (some L'.v) (some S') normalOrder ell) = _
    rw [made_ok q v _ ell hq.1 hv h0, ok_bind, hr, ok_bind, e, ok_bind]
    rfl

/-- Velocity for an order, from the one for the normal order. -/
theorem velFor_R (o : Order) (h : RotFirst o) (q : Quaternion ℝ) (v : Vec) : velFor o q v = v := if_pos h
theorem velFor_B (o : Order) (h : ¬ RotFirst o) (q : Quaternion ℝ) (v : Vec) : velFor o q v = rotateVec (star q) v := if_neg h

theorem fromNormal_eq (ext : Ext) (he : SvdOk ext) (b : BMS) (hb : Valid b) (hn : b.order = normalOrder) (o : Order) (ho : o ∈ orders) (h12 : o.head? ≠ some .supertranslation → 12 ≤ b.ellMax) :
    ∃ c, b.fromNormal ext o = .ok c ∧ Is c b.q (velFor o b.q b.v) (T (lorentz (before o) b.q (velFor o b.q b.v)) b.S.f) o b.ellMax := by
  obtain ⟨hq, hv, h1, hS, -⟩ := hb
  have h0 : 0 ≤ b.ellMax := by omega
  have hsU := unit_star hq
  have hV : dot (rotateVec (star b.q) b.v) (rotateVec (star b.q) b.v) < 1 := by rw [rotateVec_dot _ hsU.1]; exact hv
  have hvneg : dot (-b.v) (-b.v) < 1 := by rwa [dot_neg_self]
  rcases b with ⟨q, v, S, ob, ell⟩
  simp only at *
  subst hn
  have ho' := ho
  simp only [orders, List.mem_cons, List.not_mem_nil, or_false] at ho
  have hno := normal_mem
  rcases ho with rfl | rfl | rfl | rfl | rfl | rfl
  · -- S R B
    rw [velFor_R _ (rotFirst_R _ (by simp))]
    have : T (lorentz (before [.supertranslation, .frame_rotation, .boost_velocity]) q v) S.f = S.f := T_id S.f
    rw [this]
    exact bmsInit_is q v S normalOrder ell hq.1 hv h1 hS normal_mem S.f (SEq.refl _)
  · -- R S B
    rw [velFor_R _ (rotFirst_R _ (by simp))]
    have hi := inverse_eq ext he (made q 0 normalOrder ell) (lok _ _ _ _ hq zero_lt h0) none
    rw [leftV_made q 0 _ hno ell, if_pos rotFirst_normal3] at hi
    change _ = Except.ok (made (star q) (velFor [.boost_velocity, .frame_rotation] (star q) (rotateVec (star q) (-0))) [.boost_velocity, .frame_rotation]) at hi
    have hz : velFor [.boost_velocity, .frame_rotation] (star q) (rotateVec (star q) (-0)) = 0 := by
      rw [velFor_B _ (by unfold RotFirst; decide), star_star, rotate_rotate_star q hq.1, neg_zero]
    rw [hz] at hi
    have hL : LOk (made (star q) 0 [.boost_velocity, .frame_rotation]) := lok _ _ _ _ hsU zero_lt (by norm_num)
    obtain ⟨S', e, hl, hf⟩ := transformSuper_eq ext he S (made (star q) 0 [.boost_velocity, .frame_rotation]) hL
    have hlv : leftV (made (star q) 0 [.boost_velocity, .frame_rotation]) = 0 := by
      unfold leftV
      split_ifs
      · rfl
      · show rotateVec (star q) 0 = 0
        have := rotateVec_smul (star q) 0 0
        simpa using this
    rw [hlv] at hf
    have hf' : SEq S'.f (T (lorentz (before [.frame_rotation, .supertranslation, .boost_velocity]) q v) S.f) := hf.trans (by
      rw [T_of_eq (M := rot q) (fun X => by
        rw [boost_nzero]
        show rot (star (star q)) X = _
        rw [star_star])]
      exact SEq.refl _)
    obtain ⟨n, e2, hn⟩ := bmsInit_is q v S' [.frame_rotation, .supertranslation, .boost_velocity] ell hq.1 hv h1 (by rw [hl]; exact h12 (by decide)) ho' _ hf'
    refine ⟨n, ?_, hn⟩
    rw [← e2]
    show (do
      let L ← lorentzInit (some q) none normalOrder ell
      let L ← L.inverse ext
      let S' ← transformSuper ext S L
      bmsInit (some q) (some v) (some S') [.frame_rotation, .supertranslation, .boost_velocity] ell) = _
    rw [made_rotation q _ ell hq.1 h0, ok_bind, hi, ok_bind, e, ok_bind]
  · -- R B S
    rw [velFor_R _ (rotFirst_R _ (by simp))]
    have hi := inverse_eq ext he (made q v normalOrder ell) (lok _ _ _ _ hq hv h0) none
    rw [leftV_made q v _ hno ell, if_pos rotFirst_normal3] at hi
    change _ = Except.ok (made (star q) (velFor [.boost_velocity, .frame_rotation] (star q) (rotateVec (star q) (-v))) [.boost_velocity, .frame_rotation]) at hi
    have hz : velFor [.boost_velocity, .frame_rotation] (star q) (rotateVec (star q) (-v)) = -v := by
      rw [velFor_B _ (by unfold RotFirst; decide), star_star, rotate_rotate_star q hq.1]
    rw [hz] at hi
    obtain ⟨S', e, hl, hf⟩ := transformSuper_eq ext he S (made (star q) (-v) [.boost_velocity, .frame_rotation]) (lok _ _ _ _ hsU hvneg (by norm_num))
    have hlv : leftV (made (star q) (-v) [.boost_velocity, .frame_rotation]) = rotateVec (star q) (-v) := if_neg (by unfold RotFirst; show ¬ _; exact of_decide_eq_true rfl)
    rw [hlv] at hf
    have hf' : SEq S'.f (T (lorentz (before [.frame_rotation, .boost_velocity, .supertranslation]) q v) S.f) := hf.trans (by
      rw [T_of_eq (M := fun X => boost v (rot q X)) (fun X => by
        show rot (star (star q)) (boost (-rotateVec (star q) (-v)) X) = _
        rw [star_star, ← rotateVec_neg, neg_neg, rot_boost q hq.1, rotate_rotate_star q hq.1])]
      exact SEq.refl _)
    obtain ⟨n, e2, hn⟩ := bmsInit_is q v S' [.frame_rotation, .boost_velocity, .supertranslation] ell hq.1 hv h1 (by rw [hl]; exact h12 (by decide)) ho' _ hf'
    refine ⟨n, ?_, hn⟩
    rw [← e2]
    show (do
      let L ← lorentzInit (some q) (some v) normalOrder ell
      let L ← L.inverse ext
      let S' ← transformSuper ext S L
      bmsInit (some q) (some v) (some S') [.frame_rotation, .boost_velocity, .supertranslation] ell) = _
    rw [made_ok q v _ ell hq.1 hv h0, ok_bind, hi, ok_bind, e, ok_bind]
  · -- S B R
    rw [velFor_B _ (rotFirst_B _ (by simp))]
    have hr := reorder_eq ext he (made q v normalOrder ell) (lok _ _ _ _ hq hv h0) [.supertranslation, .boost_velocity, .frame_rotation] (by decide) (by decide) (by rw [made_order _ hno]; decide)
    rw [leftV_made q v _ hno ell, if_pos rotFirst_normal3, velFor_B _ (rotFirst_B _ (by simp))] at hr
    have : T (lorentz (before [.supertranslation, .boost_velocity, .frame_rotation]) q (rotateVec (star q) v)) S.f = S.f := T_id S.f
    rw [this]
    obtain ⟨n, e2, hn⟩ := bmsInit_is q (rotateVec (star q) v) S [.supertranslation, .boost_velocity, .frame_rotation] ell hq.1 hV h1 hS ho' S.f (SEq.refl _)
    refine ⟨n, ?_, hn⟩
    rw [← e2]
    show (do
      let L ← lorentzInit (some q) (some v) normalOrder ell
      let L' ← L.reorder ext [.supertranslation, .boost_velocity, .frame_rotation]
      bmsInit (some L'.q) (some L'.v) (some S) [.supertranslation, .boost_velocity, .frame_rotation] ell) = _
    rw [made_ok q v _ ell hq.1 hv h0, ok_bind, hr, ok_bind]
    rfl
  · -- B S R
    rw [velFor_B _ (rotFirst_B _ (by simp))]
    have hr := reorder_eq ext he (made q v normalOrder ell) (lok _ _ _ _ hq hv h0) [.boost_velocity, .supertranslation, .frame_rotation] (by decide) (by decide) (by rw [made_order _ hno]; decide)
    rw [leftV_made q v _ hno ell, if_pos rotFirst_normal3, velFor_B _ (rotFirst_B _ (by simp))] at hr
    change _ = Except.ok (made q (rotateVec (star q) v) [.boost_velocity, .supertranslation, .frame_rotation]) at hr
    obtain ⟨w, hw⟩ : ∃ w, w = rotateVec (star q) v := ⟨_, rfl⟩
    rw [← hw] at hr hV ⊢
    have hwneg : dot (-w) (-w) < 1 := by rwa [dot_neg_self]
    have hi := inverse_eq ext he (made 1 w [.boost_velocity, .frame_rotation]) (lok _ _ _ _ unit_one hV (by norm_num)) none
    have hlw : leftV (made 1 w [.boost_velocity, .frame_rotation]) = rotateVec 1 w := if_neg (by unfold RotFirst; show ¬ _; exact of_decide_eq_true rfl)
    rw [hlw, rotateVec_one] at hi
    change _ = Except.ok (made (star 1) (velFor [.frame_rotation, .boost_velocity] (star 1) (rotateVec (star 1) (-w))) [.frame_rotation, .boost_velocity]) at hi
    rw [star_one', velFor_R _ (by unfold RotFirst; decide), rotateVec_one] at hi
    obtain ⟨S', e, hl, hf⟩ := transformSuper_eq ext he S (made 1 (-w) [.frame_rotation, .boost_velocity]) (lok _ _ _ _ unit_one hwneg (by norm_num))
    have hlv : leftV (made 1 (-w) [.frame_rotation, .boost_velocity]) = -w := if_pos (by unfold RotFirst; exact of_decide_eq_true rfl)
    rw [hlv, neg_neg] at hf
    have hf' : SEq S'.f (T (lorentz (before [.boost_velocity, .supertranslation, .frame_rotation]) q w) S.f) := hf.trans (by
      rw [T_of_eq (M := boost w) (fun X => by
        show rot (star 1) (boost w X) = _
        rw [star_one', rot_one])]
      exact SEq.refl _)
    obtain ⟨n, e2, hn⟩ := bmsInit_is q w S' [.boost_velocity, .supertranslation, .frame_rotation] ell hq.1 hV h1 (by rw [hl]; exact h12 (by decide)) ho' _ hf'
    refine ⟨n, ?_, hn⟩
    rw [← e2]
    show (do
      let L ← lorentzInit (some q) (some v) normalOrder ell
      let L' ← L.reorder ext [.boost_velocity, .supertranslation, .frame_rotation]
      let L ← lorentzInit none (some L'.v) L'.order L'.ellMax
      let L ← L.inverse ext
      let S' ← transformSuper ext S L
      bmsInit (some L'.q) (some L'.v) (some S') [.boost_velocity, .supertranslation, .frame_rotation] ell) = _
    rw [made_ok q v _ ell hq.1 hv h0, ok_bind, hr, ok_bind]
    show (do
      let L ← lorentzInit none (some w) [.boost_velocity, .frame_rotation] 12
      let L ← L.inverse ext
      let S' ← transformSuper ext S L
      bmsInit (some q) (some w) (some S') [.boost_velocity, .supertranslation, .frame_rotation] ell) = _
    rw [made_boost w _ 12 hV (by norm_num), ok_bind, hi, ok_bind, e, ok_bind]
  · -- B R S
    rw [velFor_B _ (rotFirst_B _ (by simp))]
    have hr := reorder_eq ext he (made q v normalOrder ell) (lok _ _ _ _ hq hv h0) [.boost_velocity, .frame_rotation, .supertranslation] (by decide) (by decide) (by rw [made_order _ hno]; decide)
    rw [leftV_made q v _ hno ell, if_pos rotFirst_normal3, velFor_B _ (rotFirst_B _ (by simp))] at hr
    change _ = Except.ok (made q (rotateVec (star q) v) [.boost_velocity, .frame_rotation, .supertranslation]) at hr
    obtain ⟨w, hw⟩ : ∃ w, w = rotateVec (star q) v := ⟨_, rfl⟩
    have hwv : rotateVec q w = v := by rw [hw, rotate_rotate_star q hq.1]
    rw [← hw] at hr hV ⊢
    have hwneg : dot (-w) (-w) < 1 := by rwa [dot_neg_self]
    have hi := inverse_eq ext he (made q w [.boost_velocity, .frame_rotation, .supertranslation]) (lok _ _ _ _ hq hV (by norm_num)) none
    have hlw : leftV (made q w [.boost_velocity, .frame_rotation, .supertranslation]) = rotateVec q w := if_neg (by unfold RotFirst; show ¬ _; exact of_decide_eq_true rfl)
    rw [hlw, hwv] at hi
    change _ = Except.ok (made (star q) (velFor [.frame_rotation, .boost_velocity] (star q) (rotateVec (star q) (-v))) [.frame_rotation, .boost_velocity]) at hi
    rw [velFor_R _ (by unfold RotFirst; decide), rotateVec_neg, ← hw] at hi
    obtain ⟨S', e, hl, hf⟩ := transformSuper_eq ext he S (made (star q) (-w) [.frame_rotation, .boost_velocity]) (lok _ _ _ _ hsU hwneg (by norm_num))
    have hlv : leftV (made (star q) (-w) [.frame_rotation, .boost_velocity]) = -w := if_pos (by unfold RotFirst; exact of_decide_eq_true rfl)
    rw [hlv, neg_neg] at hf
    have hf' : SEq S'.f (T (lorentz (before [.boost_velocity, .frame_rotation, .supertranslation]) q w) S.f) := hf.trans (by
      rw [T_of_eq (M := fun X => rot q (boost w X)) (fun X => by
        show rot (star (star q)) (boost w X) = _
        rw [star_star])]
      exact SEq.refl _)
    obtain ⟨n, e2, hn⟩ := bmsInit_is q w S' [.boost_velocity, .frame_rotation, .supertranslation] ell hq.1 hV h1 (by rw [hl]; exact h12 (by decide)) ho' _ hf'
    refine ⟨n, ?_, hn⟩
    rw [← e2]
    show (do
      let L ← lorentzInit (some q) (some v) normalOrder ell
      let L' ← L.reorder ext [.boost_velocity, .frame_rotation, .supertranslation]
      let L ← L'.inverse ext
      let S' ← transformSuper ext S L
      bmsInit (some L'.q) (some L'.v) (some S') [.boost_velocity, .frame_rotation, .supertranslation] ell) = _
    rw [made_ok q v _ ell hq.1 hv h0, ok_bind, hr, ok_bind, hi, ok_bind, e, ok_bind]
    rfl

end Verif.Lemmas.Bms
