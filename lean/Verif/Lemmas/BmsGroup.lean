import Verif.Lemmas.BmsElement
import Mathlib.Analysis.Matrix.Spectrum
import Mathlib.Analysis.Matrix.PosDef

/-!
# Products and inverses of BMS transformations
-/

namespace Verif.Lemmas.Bms

open Verif Verif.Bms Verif.AbdTransform Verif.Spec.Bms Verif.Props.AbdTransform

theorem room_normal (b : BMS) (h : 12 ≤ b.ellMax ∨ b.order ≠ [.boost_velocity, .frame_rotation, .supertranslation]) : Room b normalOrder := by
  rcases h with h | h
  · exact Or.inl h
  · exact Or.inr ⟨h, rfl⟩

theorem mul_params (ext : Ext) (he : SvdOk ext) (a b : BMS) (ha : Valid a) (hb : Valid b) (ra : Room a normalOrder) (rb : Room b normalOrder) :
    ∃ c, a.mul ext b = .ok c ∧ Valid c ∧ c.order = normalOrder ∧ c.ellMax = max a.ellMax b.ellMax ∧
      (∀ X, act c.q c.v X = act b.q (normalV b) (act a.q (normalV a) X)) ∧
      SEq c.S.f (fun r => T (actInv b.q (normalV b)) (superOf a) r + superOf b r) := by
  obtain ⟨n1, e1, ok1, o1, l1, q1, v1, S1, -⟩ := reorder_params ext he a ha normalOrder normal_mem ra
  obtain ⟨n2, e2, ok2, o2, l2, q2, v2, S2, -⟩ := reorder_params ext he b hb normalOrder normal_mem rb
  rw [superOf_normal n1 o1] at S1
  rw [superOf_normal n2 o2] at S2
  rw [normalV_normal n1 o1] at v1
  rw [normalV_normal n2 o2] at v2
  obtain ⟨ell, hell⟩ : ∃ ell, ell = max a.ellMax b.ellMax := ⟨_, rfl⟩
  have h1 : 1 ≤ ell := by rw [hell]; have := ha.2.2.1; omega
  have h0 : 0 ≤ ell := by omega
  have f1 := made_ok n1.q n1.v normalOrder ell ok1.1.1 ok1.2.1 h0
  have f2 := made_ok n2.q n2.v normalOrder ell ok2.1.1 ok2.2.1 h0
  have k1 := lok n1.q n1.v normalOrder ell ok1.1 ok1.2.1 h0
  have k2 := lok n2.q n2.v normalOrder ell ok2.1 ok2.2.1 h0
  obtain ⟨L, e3, hLq, hLv, hL⟩ := mul_eq ext he _ _ k1 k2
  obtain ⟨S', e4, hSl, hS'⟩ := transformSuper_eq ext he { n1.S with ell := ell } _ k2
  rw [leftV_made n2.q n2.v _ normal_mem ell, if_pos rotFirst_normal3] at hS' hL
  rw [leftV_made n1.q n1.v _ normal_mem ell, if_pos rotFirst_normal3] at hL
  obtain ⟨c, e5, hc⟩ := bmsInit_is L.q L.v { ell := ell, f := fun r => S'.f r + n2.S.f r } normalOrder ell hLq.1 hLv h1 le_rfl normal_mem _ (SEq.refl _)
  refine ⟨c, ?_, hc.ok hLq hLv h1 normal_mem, hc.2.2.2.1, by rw [hc.2.2.2.2.1, hell], ?_, ?_⟩
  · unfold BMS.mul
    rw [← hell, e1, ok_bind, e2, ok_bind, o1, o2, f1, ok_bind, f2, ok_bind, e3, ok_bind, e4, ok_bind, e5]
  · intro X
    rw [hc.1, hc.2.1, hL, ← q1, ← q2, ← v1, ← v2]
    rfl
  · refine hc.2.2.1.trans ?_
    intro r hr
    show S'.f r + n2.S.f r = _
    rw [hS' r hr, S2 r hr]
    show T (actInv n2.q n2.v) n1.S.f r + _ = T (actInv b.q (normalV b)) (superOf a) r + _
    rw [T_congr (nice_actInv n2.q n2.v ok2.1.1 ok2.2.1) S1 r hr, q2, v2]

theorem T_neg (Λ : Four → Four) (f : Vec → ℝ) (r : Vec) : T Λ (fun r => -f r) r = -T Λ f r := by
  unfold T
  ring

/-- Room for `inverse`. -/
theorem inverse_params (ext : Ext) (he : SvdOk ext) (b : BMS) (hb : Valid b) (o : Option Order) (ho : o.getD b.order.reverse ∈ orders) (ra : Room b normalOrder)
    (rb : 12 ≤ b.ellMax ∨ o.getD b.order.reverse = [.boost_velocity, .frame_rotation, .supertranslation]) :
    ∃ c, b.inverse ext o = .ok c ∧ Valid c ∧ c.order = o.getD b.order.reverse ∧ c.ellMax = b.ellMax ∧ c.q = star b.q ∧
      (∀ X, act c.q (normalV c) X = actInv b.q (normalV b) X) ∧
      SEq (superOf c) (fun r => -T (act b.q (normalV b)) (superOf b) r) := by
  obtain ⟨n, e1, ok1, o1, l1, q1, v1, S1, -⟩ := reorder_params ext he b hb normalOrder normal_mem ra
  rw [superOf_normal n o1] at S1
  rw [normalV_normal n o1] at v1
  have h1 := ok1.2.2.1
  have h0 : 0 ≤ n.ellMax := by omega
  have hs := unit_star ok1.1
  have hneg : dot (-n.v) (-n.v) < 1 := by rw [dot_neg_self]; exact ok1.2.1
  have f1 : lorentzInit (some n.q) (some n.v) lorentzNormal n.ellMax = .ok (made n.q n.v lorentzNormal n.ellMax) := made_ok n.q n.v lorentzNormal n.ellMax ok1.1.1 ok1.2.1 h0
  have f2 := inverse_eq ext he _ (lok n.q n.v lorentzNormal n.ellMax ok1.1 ok1.2.1 h0) (some lorentzNormal.reverse)
  have hleft : leftV (made n.q n.v lorentzNormal n.ellMax) = n.v := if_pos (by unfold RotFirst; exact of_decide_eq_true rfl)
  rw [hleft] at f2
  change _ = Except.ok (made (star n.q) (velFor [.boost_velocity, .frame_rotation] (star n.q) (rotateVec (star n.q) (-n.v))) [.boost_velocity, .frame_rotation]) at f2
  rw [velFor_B _ (by unfold RotFirst; decide), star_star, rotate_rotate_star n.q ok1.1.1] at f2
  have hrev : normalOrder.reverse ∈ orders := by decide
  obtain ⟨i, f3, hi⟩ := bmsInit_is (star n.q) (-n.v) { n.S with f := fun r => -n.S.f r } normalOrder.reverse n.ellMax hs.1 hneg h1 ok1.2.2.2.1 hrev _ (SEq.refl _)
  have hiok := hi.ok hs hneg h1 hrev
  obtain ⟨i1, i2, i3, i4, i5, i6⟩ := hi
  have hact : ∀ X, act i.q (normalV i) X = actInv b.q (normalV b) X := by
    intro X
    rw [← lorentz_normal i hiok, i4, i1, i2, q1, v1]
    rfl
  have hsup : SEq (superOf i) (fun r => -T (act b.q (normalV b)) (superOf b) r) := by
    rw [superOf_T, i4, i1, i2]
    have hA : lorentzInv (before normalOrder.reverse) (star n.q) (-n.v) = act n.q n.v := by
      funext X
      show boost (- -n.v) (rot (star (star n.q)) X) = boost n.v (rot n.q X)
      rw [neg_neg, star_star]
    rw [hA]
    have hnice := nice_act n.q ok1.1.1 n.v ok1.2.1
    refine (T_congr hnice i3).trans ?_
    intro r hr
    rw [T_neg, T_congr hnice S1 r hr, q1, v1]
  by_cases hor : i.order = o.getD b.order.reverse
  · refine ⟨i, ?_, hiok, hor, i5.trans l1, i1.trans (by rw [q1]), hact, hsup⟩
    unfold BMS.inverse
    rw [e1, ok_bind, f1, ok_bind, f2, ok_bind]
    show (do
      let i ← bmsInit (some (star n.q)) (some (-n.v)) _ normalOrder.reverse n.ellMax
      if i.order = o.getD b.order.reverse then pure i else i.reorder ext (o.getD b.order.reverse)) = _
    rw [f3, ok_bind, if_pos hor]
    rfl
  · obtain ⟨c, e5, c1, c2, c3, c4, c5, c6, -⟩ := reorder_params ext he i hiok _ ho (Or.inl (by
      rw [i5, l1]
      rcases rb with rb | rb
      · exact rb
      · exact absurd (i4.trans rb.symm) hor))
    refine ⟨c, ?_, c1, c2, c3.trans (i5.trans l1), c4.trans (i1.trans (by rw [q1])), ?_, c6.trans hsup⟩
    · unfold BMS.inverse
      rw [e1, ok_bind, f1, ok_bind, f2, ok_bind]
      show (do
        let i ← bmsInit (some (star n.q)) (some (-n.v)) _ normalOrder.reverse n.ellMax
        if i.order = o.getD b.order.reverse then pure i else i.reorder ext (o.getD b.order.reverse)) = _
      rw [f3, ok_bind, if_neg hor, e5]
    · intro X
      rw [← hact, c4, c5]

/-- `BMSTransformation()` -/
theorem init_none (S : Option Super) (v : Option Vec) (q : Option (Quaternion ℝ)) (o : Order) (ho : o ∈ orders) (ell : Int) (h1 : 1 ≤ ell) (hS : ∀ s, S = some s → s.ell ≤ ell)
    (hq : ∀ p, q = some p → Rotor p) (hv : ∀ w, v = some w → dot w w < 1) :
    ∃ b, bmsInit q v S o ell = .ok b ∧ Valid b ∧ b.q = q.getD 1 ∧ b.v = v.getD 0 ∧ b.S.f = (S.map (·.f)).getD (fun _ => 0) ∧ b.order = o ∧ b.ellMax = ell := by
  have hU : Rotor (q.getD 1) := by
    rcases q with _ | p
    · exact unit_one
    · exact hq p rfl
  have hV : dot (v.getD 0) (v.getD 0) < 1 := by
    rcases v with _ | w
    · exact zero_lt
    · exact hv w rfl
  have hS' : (S.getD { ell := 1, f := fun _ => 0 }).ell ≤ ell := by
    rcases S with _ | s
    · exact h1
    · exact hS s rfl
  have e0 := bmsInit_ok (q.getD 1) (v.getD 0) (S.getD { ell := 1, f := fun _ => 0 }) o ell hU.1 hV h1 hS'
  have hc : complete normalOrder o = o := by
    clear e0
    simp only [orders, List.mem_cons, List.not_mem_nil, or_false] at ho
    rcases ho with rfl | rfl | rfl | rfl | rfl | rfl <;> rfl
  have e : bmsInit q v S o ell = bmsInit (some (q.getD 1)) (some (v.getD 0)) (some (S.getD { ell := 1, f := fun _ => 0 })) o ell := by
    have er : TransformKwargs.rotor { frame_rotation := q.map components, boost_velocity := v.map List.ofFn } =
        TransformKwargs.rotor { frame_rotation := (some (q.getD 1)).map components, boost_velocity := (some (v.getD 0)).map List.ofFn } := by
      rcases q with _ | p
      · rw [rotor_none _ rfl, rotor_ok 1 unit_one.1 _ rfl]
      · rfl
    have ev : TransformKwargs.velocity { frame_rotation := q.map components, boost_velocity := v.map List.ofFn } =
        TransformKwargs.velocity { frame_rotation := (some (q.getD 1)).map components, boost_velocity := (some (v.getD 0)).map List.ofFn } := by
      rcases v with _ | w
      · rw [velocity_none _ rfl, velocity_ok 0 zero_lt _ rfl]
        congr 1
      · rfl
    unfold bmsInit
    simp only [Option.getD_some, er, ev]
  rw [e, e0, hc]
  refine ⟨_, rfl, ⟨hU, hV, h1, le_rfl, ho⟩, rfl, rfl, ?_, rfl, rfl⟩
  rcases S with _ | s <;> rfl

/-! ## The element determines the parameters -/

theorem act_add (q : Quaternion ℝ) (v : Vec) (X Y : Four) : act q v (X + Y) = act q v X + act q v Y := by
  have hr : rotateVec q (X.2 + Y.2) = rotateVec q X.2 + rotateVec q Y.2 := rotateVec_add q X.2 Y.2
  unfold act rot boost
  refine Prod.ext ?_ ?_
  · show gam v * (X.1 + Y.1 + dot v (rotateVec q (X.2 + Y.2))) = gam v * (X.1 + dot v (rotateVec q X.2)) + gam v * (Y.1 + dot v (rotateVec q Y.2))
    rw [hr, dot_add]
    ring
  · show rotateVec q (X.2 + Y.2) + (gam v ^ 2 / (gam v + 1) * dot v (rotateVec q (X.2 + Y.2)) + gam v * (X.1 + Y.1)) • v = (rotateVec q X.2 + (gam v ^ 2 / (gam v + 1) * dot v (rotateVec q X.2) + gam v * X.1) • v) +
      (rotateVec q Y.2 + (gam v ^ 2 / (gam v + 1) * dot v (rotateVec q Y.2) + gam v * Y.1) • v)
    rw [hr, dot_add]
    funext i
    simp only [Pi.add_apply, Pi.smul_apply, smul_eq_mul]
    ring

theorem toOld_inj {S S' : Vec → ℝ} {Λ Λ' M : Four → Four} (h : Nice Λ) (h' : Nice Λ') (hM : Nice M) (hinv : ∀ X, Λ (M X) = X)
    (he : ∀ p : Scri, Sphere p.2 → toOld S Λ p = toOld S' Λ' p) : (∀ r, Sphere r → Λ (null r) = Λ' (null r)) ∧ SEq S S' := by
  have key : ∀ r, Sphere r → Λ (null r) = Λ' (null r) ∧ S (dir (Λ (null r))) = S' (dir (Λ (null r))) := by
    intro r hr
    have h0 := he (0, r) hr
    have h1 := he (1, r) hr
    unfold toOld at h0 h1
    simp only [Prod.mk.injEq] at h0 h1
    have hX := h.1 _ (future_null hr)
    have hX' := h'.1 _ (future_null hr)
    generalize Λ (null r) = X at *
    generalize Λ' (null r) = X' at *
    have hS : S (dir X) = S' (dir X') := by simpa using h0.1
    have hk : X.1 = X'.1 := by
      have := h1.1
      rw [hS] at this
      have h2 : 1 / X.1 = 1 / X'.1 := by linarith
      rwa [one_div, one_div, inv_inj] at h2
    have hd := h0.2
    refine ⟨?_, by rw [hS, hd]⟩
    have e1 := null_dir hX
    have e2 := null_dir hX'
    rw [hd, e2, hk] at e1
    have hne := hX'.1.ne'
    have := congrArg (fun Y => X'.1 • Y) e1
    simp only [smul_smul, mul_inv_cancel₀ hne, one_smul] at this
    exact this.symm
  refine ⟨fun r hr => (key r hr).1, ?_⟩
  intro r hr
  have hf := hM.1 _ (future_null hr)
  have := (key _ (dir_sphere hf)).2
  rw [null_dir hf, h.2, hinv, dir_smul _ (inv_pos.mpr hf.1)] at this
  have hd : dir (null r) = r := by unfold dir null; simp
  rwa [hd] at this

theorem rotor_sign (q : Quaternion ℝ) (hq : Quaternion.normSq q = 1) (h : ∀ w, rotateVec q w = w) : q = 1 ∨ q = -1 := by
  have h0 := h ![1, 0, 0]
  have h1 := h ![0, 1, 0]
  have a0 := congrFun h0 0
  have a1 := congrFun h0 1
  have a2 := congrFun h0 2
  have b0 := congrFun h1 0
  have b1 := congrFun h1 1
  have b2 := congrFun h1 2
  rw [rotateVec_0] at a0 b0
  rw [rotateVec_1] at a1 b1
  rw [rotateVec_2] at a2 b2
  simp at a0 a1 a2 b0 b1 b2
  rw [normSq_components] at hq
  have x0 : q.imI ^ 2 = 0 := by nlinarith [sq_nonneg q.imI, sq_nonneg q.imJ, sq_nonneg q.imK]
  have x1 : q.imJ ^ 2 = 0 := by nlinarith [sq_nonneg q.imI, sq_nonneg q.imJ, sq_nonneg q.imK]
  have x2 : q.imK ^ 2 = 0 := by nlinarith [sq_nonneg q.imI, sq_nonneg q.imJ, sq_nonneg q.imK]
  have y0 := pow_eq_zero_iff (two_ne_zero) |>.mp x0
  have y1 := pow_eq_zero_iff (two_ne_zero) |>.mp x1
  have y2 := pow_eq_zero_iff (two_ne_zero) |>.mp x2
  have y3 : (q.re - 1) * (q.re + 1) = 0 := by nlinarith
  rcases mul_eq_zero.mp y3 with h | h
  · left
    exact Quaternion.ext _ _ (by rw [sub_eq_zero.mp h]; rfl) (by rw [y0]; rfl) (by rw [y1]; rfl) (by rw [y2]; rfl)
  · right
    exact Quaternion.ext _ _ (by rw [eq_neg_of_add_eq_zero_left h]; rfl) (by rw [y0]; exact neg_zero.symm) (by rw [y1]; exact neg_zero.symm) (by rw [y2]; exact neg_zero.symm)

theorem act_inj {q p : Quaternion ℝ} {v w : Vec} (hq : Quaternion.normSq q = 1) (hp : Quaternion.normSq p = 1) (hv : dot v v < 1) (hw : dot w w < 1)
    (h : ∀ r, Sphere r → act q v (null r) = act p w (null r)) : v = w ∧ (q = p ∨ q = -p) := by
  have hlin : ∀ X, act q v X = act p w X := by
    have hpm : ∀ r, Sphere r → Sphere (-r) := fun r hr => by unfold Sphere at *; rw [dot_neg_self]; exact hr
    have nq := nice_act q hq v hv
    have np := nice_act p hp w hw
    have ht : act q v (1, 0) = act p w (1, 0) := by
      have e : ((1 : ℝ), (0 : Vec)) = (1 / 2 : ℝ) • (null ![1, 0, 0] + null (-![1, 0, 0])) := by
        unfold null
        refine Prod.ext ?_ ?_
        · show (1 : ℝ) = 1 / 2 * (1 + 1); norm_num
        · show (0 : Vec) = (1 / 2 : ℝ) • (![1, 0, 0] + -![1, 0, 0]); rw [add_neg_cancel, smul_zero]
      have hs : Sphere ![1, 0, 0] := by unfold Sphere dot; simp [Fin.sum_univ_three]
      rw [e, nq.2, np.2, act_add, act_add, h _ hs, h _ (hpm _ hs)]
    intro X
    by_cases h0 : dot X.2 X.2 = 0
    · have hX : X = X.1 • ((1 : ℝ), (0 : Vec)) := by
        have hz : X.2 = 0 := by
          unfold dot at h0
          rw [Fin.sum_univ_three] at h0
          funext i
          fin_cases i <;> simp <;> nlinarith [mul_self_nonneg (X.2 0), mul_self_nonneg (X.2 1), mul_self_nonneg (X.2 2)]
        refine Prod.ext ?_ ?_
        · show X.1 = X.1 * 1; ring
        · show X.2 = X.1 • (0 : Vec); rw [hz, smul_zero]
      rw [hX, nq.2, np.2, ht]
    · have hpos : 0 < dot X.2 X.2 := lt_of_le_of_ne (dot_nonneg _) (Ne.symm h0)
      obtain ⟨s, hs, hs2⟩ : ∃ s, 0 < s ∧ s * s = dot X.2 X.2 := ⟨√(dot X.2 X.2), Real.sqrt_pos.mpr hpos, Real.mul_self_sqrt hpos.le⟩
      have hsph : Sphere (s⁻¹ • X.2) := by
        unfold Sphere
        rw [dot_smul, dot_comm, dot_smul, ← hs2]
        field_simp
      have hX : X = (X.1 - s) • ((1 : ℝ), (0 : Vec)) + s • null (s⁻¹ • X.2) := by
        unfold null
        refine Prod.ext ?_ ?_
        · show X.1 = (X.1 - s) * 1 + s * 1; ring
        · show X.2 = (X.1 - s) • (0 : Vec) + s • (s⁻¹ • X.2)
          rw [smul_zero, zero_add, smul_smul, mul_inv_cancel₀ hs.ne', one_smul]
      rw [hX, act_add, act_add, nq.2, np.2, nq.2, np.2, ht, h _ hsph]
  have hz : ∀ q : Quaternion ℝ, rotateVec q 0 = 0 := fun q => by simpa using rotateVec_smul q 0 0
  have hvw : v = w := by
    have h1 := hlin (1, 0)
    unfold act rot boost at h1
    simp only [hz] at h1
    have d : ∀ v : Vec, dot v 0 = 0 := fun v => by simp [dot]
    simp only [d, Prod.mk.injEq] at h1
    have g := h1.1
    have g2 := h1.2
    simp at g g2
    rw [g] at g2
    have := gam_pos w hw
    have h3 := congrArg (fun x => (gam w)⁻¹ • x) g2
    simpa [smul_smul, inv_mul_cancel₀ this.ne'] using h3
  refine ⟨hvw, ?_⟩
  subst hvw
  have hrot : ∀ X, rot q X = rot p X := by
    intro X
    have h1 := congrArg (boost (-v)) (hlin X)
    unfold act at h1
    rwa [boost_neg_boost v hv, boost_neg_boost v hv] at h1
  have hs : ∀ w, rotateVec (star p * q) w = w := by
    intro w
    have h1 := hrot (0, w)
    have h2 := congrArg (rot (star p)) h1
    rw [rot_star_rot p hp, ← rot_mul] at h2
    exact congrArg Prod.snd h2
  have hn : Quaternion.normSq (star p * q) = 1 := by rw [map_mul, normSq_star, hp, hq, one_mul]
  rcases rotor_sign _ hn hs with h1 | h1
  · left
    have := congrArg (p * ·) h1
    simpa only [← mul_assoc, self_mul_star p hp, one_mul, mul_one] using this
  · right
    have := congrArg (p * ·) h1
    simp only [← mul_assoc, self_mul_star p hp, one_mul] at this
    rw [this]
    have e : p * (-1) = -(p * 1) := mul_neg p 1
    rw [e, mul_one]

/-! ## There are singular value decompositions -/

open Matrix ComplexOrder in
theorem svd_exists (A : Mat) (hA : A.det = 1) : ∃ u : Mat, ∃ s : Fin 2 → ℝ, ∃ vh : Mat, u * uᴴ = 1 ∧ vh * vhᴴ = 1 ∧ (∀ i, 0 ≤ s i) ∧ A = u * Matrix.diagonal (fun i => (s i : ℂ)) * vh := by
  have hH : (A * Aᴴ).IsHermitian := Matrix.isHermitian_mul_conjTranspose_self A
  have hsp := hH.spectral_theorem
  have hps : (A * Aᴴ).PosSemidef := Matrix.posSemidef_self_mul_conjTranspose A
  have hnn : ∀ i, 0 ≤ hH.eigenvalues i := hps.eigenvalues_nonneg
  have hdet : (A * Aᴴ).det = 1 := by rw [Matrix.det_mul, Matrix.det_conjTranspose, hA]; simp
  have hprod := hH.det_eq_prod_eigenvalues
  rw [hdet] at hprod
  have hpos : ∀ i, 0 < hH.eigenvalues i := by
    intro i
    refine lt_of_le_of_ne (hnn i) (fun h => ?_)
    have : ∏ i, (hH.eigenvalues i : ℂ) = 0 := Finset.prod_eq_zero (Finset.mem_univ i) (by rw [← h]; simp)
    exact one_ne_zero (hprod.trans this)
  generalize hH.eigenvalues = e at *
  obtain ⟨U, hU⟩ : ∃ U : Mat, U = (hH.eigenvectorUnitary : Mat) := ⟨_, rfl⟩
  have hUU : U * Uᴴ = 1 := by
    rw [hU]
    exact Unitary.coe_mul_star_self hH.eigenvectorUnitary
  have hUU' : Uᴴ * U = 1 := mul_eq_one_comm.mp hUU
  rw [Unitary.conjStarAlgAut_apply, ← hU] at hsp
  change A * Aᴴ = U * _ * Uᴴ at hsp
  obtain ⟨D, hD⟩ : ∃ D : Mat, D = Matrix.diagonal (fun i => ((√(e i) : ℝ) : ℂ)) := ⟨_, rfl⟩
  obtain ⟨E, hE⟩ : ∃ E : Mat, E = Matrix.diagonal (fun i => (((√(e i))⁻¹ : ℝ) : ℂ)) := ⟨_, rfl⟩
  have hne : ∀ i, √(e i) ≠ 0 := fun i => (Real.sqrt_pos.mpr (hpos i)).ne'
  have hDE : D * E = 1 := by
    rw [hD, hE, Matrix.diagonal_mul_diagonal, ← Matrix.diagonal_one]
    congr 1
    funext i
    rw [← Complex.ofReal_mul, mul_inv_cancel₀ (hne i), Complex.ofReal_one]
  have hED : E * D = 1 := mul_eq_one_comm.mp hDE
  have hEH : Eᴴ = E := by
    rw [hE, Matrix.diagonal_conjTranspose]
    congr 1
    funext i
    exact Complex.conj_ofReal _
  have hDD : Matrix.diagonal (RCLike.ofReal ∘ e) = D * D := by
    rw [hD, Matrix.diagonal_mul_diagonal]
    congr 1
    funext i
    rw [← Complex.ofReal_mul, Real.mul_self_sqrt (hnn i)]
    rfl
  refine ⟨U, fun i => √(e i), E * Uᴴ * A, hUU, ?_, fun i => Real.sqrt_nonneg _, ?_⟩
  · rw [Matrix.conjTranspose_mul, Matrix.conjTranspose_mul, Matrix.conjTranspose_conjTranspose, hEH]
    calc E * Uᴴ * A * (Aᴴ * (U * E)) = E * Uᴴ * (A * Aᴴ) * (U * E) := by simp only [Matrix.mul_assoc]
      _ = E * (Uᴴ * U) * (D * D) * (Uᴴ * U) * E := by rw [hsp, hDD]; simp only [Matrix.mul_assoc]
      _ = (E * D) * (D * E) := by rw [hUU']; simp only [Matrix.mul_assoc, Matrix.one_mul]
      _ = 1 := by rw [hED, hDE, Matrix.one_mul]
  · rw [← hD]
    calc A = (U * Uᴴ) * A := by rw [hUU, Matrix.one_mul]
      _ = U * (D * E) * Uᴴ * A := by rw [hDE, Matrix.mul_one]
      _ = _ := by simp only [Matrix.mul_assoc]

theorem ext_exists : ∃ ext : Ext, SvdOk ext := by
  classical
  refine ⟨⟨fun A => if h : A.det = 1 then ((svd_exists A h).choose, (svd_exists A h).choose_spec.choose, (svd_exists A h).choose_spec.choose_spec.choose) else (0, 0, 0)⟩, ?_⟩
  intro A hA
  simp only [dif_pos hA]
  exact (svd_exists A hA).choose_spec.choose_spec.choose_spec

end Verif.Lemmas.Bms
