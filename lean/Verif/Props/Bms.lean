import Verif.Lemmas.BmsSmall

/-!
# C36, C37: BMS transformations form a group, and reordering keeps the group element

`element b` (in `Verif.Spec.Bms`) is the group element: the map of null infinity from the new to the old coordinates.  `Valid b` says that the parameters
are those of an object as `__init__` makes it: a unit rotor (not -1), a speed below 1, and one of the six orders.  `SvdOk ext` is the specification of
`np.linalg.svd`; it can be met (`svd_spec_can_be_met`).
-/

namespace Verif.Props.Bms

open Verif Verif.Bms Verif.AbdTransform Verif.Spec.Bms Verif.Lemmas.Bms Verif.Props.AbdTransform

/-- There is a function that meets the specification of the singular value decomposition. -/
theorem svd_spec_can_be_met : ∃ ext : Ext, SvdOk ext := ext_exists

/-- The constructor makes valid objects with the given parts; parts that are not given are trivial. -/
theorem init_valid (q : Option (Quaternion ℝ)) (v : Option Vec) (S : Option Super) (o : Order) (ho : o ∈ orders) (ell : Int) (h1 : 1 ≤ ell) (hS : ∀ s, S = some s → s.ell ≤ ell)
    (hq : ∀ p, q = some p → Rotor p) (hv : ∀ w, v = some w → dot w w < 1) :
    ∃ b, bmsInit q v S o ell = .ok b ∧ Valid b ∧ b.q = q.getD 1 ∧ b.v = v.getD 0 ∧ b.S.f = (S.map (·.f)).getD (fun _ => 0) ∧ b.order = o ∧ b.ellMax = ell :=
  init_none S v q o ho ell h1 hS hq hv

/-! ## C37: reordering -/

/-- Part of C37: what is missing is `ell_max` below 12, for which it is false (`reorder_small_fails`).  `Room` says that `ell_max` is at least 12, or that the orders do not matter. -/
theorem reorder_preserves_element_partial (ext : Ext) (he : SvdOk ext) (b : BMS) (hb : Valid b) (o : Order) (ho : o ∈ orders) (hr : Room b o) :
    ∃ c, b.reorder ext o = .ok c ∧ Valid c ∧ c.order = o ∧ c.ellMax = b.ellMax ∧ ∀ p : Scri, Sphere p.2 → element c p = element b p := by
  obtain ⟨c, e, c1, c2, c3, c4, c5, c6, -⟩ := reorder_params ext he b hb o ho hr
  refine ⟨c, e, c1, c2, c3, fun p hp => ?_⟩
  rw [element_eq c c1, element_eq b hb, c4, c5]
  exact toOld_congr (nice_act b.q hb.1.1 _ (normalV_lt b hb)) c6 (fun _ => rfl) p hp

/-- Reordering to the order that the transformation has: the parameters stay. -/
theorem reorder_own_order (ext : Ext) (he : SvdOk ext) (b : BMS) (hb : Valid b) (hr : Room b b.order) :
    ∃ c, b.reorder ext b.order = .ok c ∧ c.q = b.q ∧ c.v = b.v ∧ SEq c.S.f b.S.f ∧ c.order = b.order ∧ c.ellMax = b.ellMax := by
  obtain ⟨c, e, c1, c2, c3, c4, c5, c6, c7⟩ := reorder_params ext he b hb b.order hb.2.2.2.2 hr
  have hv : c.v = b.v := by rw [← velFor_normalV c c1, c2, c4, c5, velFor_normalV b hb]
  refine ⟨c, e, c4, hv, ?_, c2, c3⟩
  refine (c7 _ (SEq.refl _)).trans ?_
  rw [hv, superOf_T]
  refine (T_T (lorentz_nice _ _ _ hb.1.1 hb.2.1) (lorentzInv_nice _ _ _ hb.1.1 hb.2.1) _).trans ?_
  rw [T_of_eq (M := fun X => X) (fun X => lorentzInv_lorentz _ _ _ hb.1.1 hb.2.1 X), T_id]
  exact SEq.refl _

/-- There and back: the parameters are restored.  What is missing is as above. -/
theorem reorder_there_and_back_partial (ext : Ext) (he : SvdOk ext) (b : BMS) (hb : Valid b) (o : Order) (ho : o ∈ orders) (hr : Room b o) (hr' : Room { b with order := o } b.order) :
    ∃ c d, b.reorder ext o = .ok c ∧ c.reorder ext b.order = .ok d ∧ d.q = b.q ∧ d.v = b.v ∧ SEq d.S.f b.S.f ∧ d.order = b.order ∧ d.ellMax = b.ellMax := by
  obtain ⟨c, e, c1, c2, c3, c4, c5, c6, c7⟩ := reorder_params ext he b hb o ho hr
  obtain ⟨d, e', d1, d2, d3, d4, d5, d6, d7⟩ := reorder_params ext he c c1 b.order hb.2.2.2.2 (by
    unfold Room at hr' ⊢
    rw [c2, c3]
    exact hr')
  have hv : d.v = b.v := by rw [← velFor_normalV d d1, d2, d4, d5, c4, c5, velFor_normalV b hb]
  refine ⟨c, d, e, e', d4.trans c4, hv, ?_, d2, d3.trans c3⟩
  refine (d7 _ c6).trans ?_
  rw [hv, c4, superOf_T]
  refine (T_T (lorentz_nice _ _ _ hb.1.1 hb.2.1) (lorentzInv_nice _ _ _ hb.1.1 hb.2.1) _).trans ?_
  rw [T_of_eq (M := fun X => X) (fun X => lorentzInv_lorentz _ _ _ hb.1.1 hb.2.1 X), T_id]
  exact SEq.refl _

/-- An order without one of the names raises `ValueError`. -/
theorem reorder_missing_name (ext : Ext) (b : BMS) (o : Order) (n : Name) (hn : n = .supertranslation ∨ n = .frame_rotation ∨ n = .boost_velocity) (h : n ∉ o) : b.reorder ext o = .error .valueError := by
  unfold BMS.reorder
  rw [if_pos]
  rintro ⟨h1, h2, h3⟩
  rcases hn with rfl | rfl | rfl <;> exact h ‹_›

/-- An order with all three names that is not one of the six: not a `ValueError`, but `UnboundLocalError`. -/
theorem reorder_unknown_order (ext : Ext) (he : SvdOk ext) (b : BMS) (hb : Valid b) (hr : Room b normalOrder) (o : Order)
    (h : .supertranslation ∈ o ∧ .frame_rotation ∈ o ∧ .boost_velocity ∈ o) (ho : o ∉ orders) : b.reorder ext o = .error .unboundLocal := by
  obtain ⟨n, e, -⟩ := toNormal_eq ext he b hb (fun h => by
    rcases hr with hr | hr
    · exact hr
    · exact absurd h hr.1)
  unfold BMS.reorder
  rw [if_neg (not_not.mpr h), e, ok_bind]
  simp only [orders, List.mem_cons, List.not_mem_nil, or_false, not_or] at ho
  obtain ⟨h1, h2, h3, h4, h5, h6⟩ := ho
  unfold BMS.fromNormal
  rw [if_neg (show o ≠ normalOrder from h1), if_neg h2, if_neg h3, if_neg h4, if_neg h5, if_neg h6]

/-- The statement of C37 for every `ell_max` is false: for `ell_max` below 12, reordering to an order in which the supertranslation is not the first, or from the reverse of the
normal order, raises `ValueError`. -/
theorem reorder_small_fails (ext : Ext) (he : SvdOk ext) (b : BMS) (hb : Valid b) (o : Order) (ho : o ∈ orders) (h : ¬ Room b o) : b.reorder ext o = .error .valueError := by
  unfold Room at h
  rw [not_or, not_le, not_and_or, not_not] at h
  obtain ⟨h12, h⟩ := h
  unfold BMS.reorder
  rw [if_neg (not_not.mpr (mem_three o ho))]
  by_cases hB : b.order = [.boost_velocity, .frame_rotation, .supertranslation]
  · rw [toNormal_small ext he b hb hB h12]
    rfl
  · obtain ⟨n, e, hn⟩ := toNormal_eq ext he b hb (fun h => absurd h hB)
    have hok := hn.ok hb.1 (normalV_lt b hb) hb.2.2.1 normal_mem
    rw [e, ok_bind, fromNormal_small ext he n hok hn.2.2.2.1 o ho (h.resolve_left hB) (by rw [hn.2.2.2.2.1]; exact h12)]

/-- `reorder` succeeds exactly if there is room. -/
theorem reorder_ok_iff (ext : Ext) (he : SvdOk ext) (b : BMS) (hb : Valid b) (o : Order) (ho : o ∈ orders) : (∃ c, b.reorder ext o = .ok c) ↔ Room b o := by
  constructor
  · rintro ⟨c, hc⟩
    by_contra h
    rw [reorder_small_fails ext he b hb o ho h] at hc
    cases hc
  · intro h
    obtain ⟨c, hc, -⟩ := reorder_preserves_element_partial ext he b hb o ho h
    exact ⟨c, hc⟩

/-! ## C36: the group -/

/-- `element b` preserves the sphere of directions, so elements can be composed. -/
theorem element_sphere (b : BMS) (hb : Valid b) (p : Scri) (hp : Sphere p.2) : Sphere (element b p).2 := by
  rw [element_eq b hb]
  exact toOld_sphere _ (nice_act b.q hb.1.1 _ (normalV_lt b hb)) p hp

/-- The product `a * b` exists and composes the elements.  As maps from old to new coordinates, `b` is applied first, as the tutorial says (`BMS2 * BMS1`). -/
theorem mul_composes (ext : Ext) (he : SvdOk ext) (a b : BMS) (ha : Valid a) (hb : Valid b) (ra : Room a normalOrder) (rb : Room b normalOrder) :
    ∃ c, a.mul ext b = .ok c ∧ Valid c ∧ c.order = normalOrder ∧ c.ellMax = max a.ellMax b.ellMax ∧ ∀ p : Scri, Sphere p.2 → element c p = element b (element a p) := by
  obtain ⟨c, e, c1, c2, c3, c4, c5⟩ := mul_params ext he a b ha hb ra rb
  refine ⟨c, e, c1, c2, c3, fun p hp => ?_⟩
  have na := nice_act a.q ha.1.1 _ (normalV_lt a ha)
  have nb := nice_act b.q hb.1.1 _ (normalV_lt b hb)
  have nc := nice_act c.q c1.1.1 _ (normalV_lt c c1)
  rw [element_eq c c1, element_eq b hb, element_eq a ha, toOld_toOld _ _ na nb (nice_actInv _ _ hb.1.1 (normalV_lt b hb)) (actInv_act b.q _ hb.1.1 (normalV_lt b hb)) p hp]
  refine toOld_congr nc ?_ ?_ p hp
  · rw [superOf_normal c c2]
    exact c5
  · rw [normalV_normal c c2]
    exact c4

theorem room_of_normal {b : BMS} (h : b.order = normalOrder) : Room b normalOrder := Or.inr ⟨by rw [h]; decide, rfl⟩

theorem mul_assoc (ext : Ext) (he : SvdOk ext) (a b c : BMS) (ha : Valid a) (hb : Valid b) (hc : Valid c) (ra : Room a normalOrder) (rb : Room b normalOrder) (rc : Room c normalOrder) :
    ∃ ab bc l r, a.mul ext b = .ok ab ∧ b.mul ext c = .ok bc ∧ ab.mul ext c = .ok l ∧ a.mul ext bc = .ok r ∧ l.ellMax = r.ellMax ∧ ∀ p : Scri, Sphere p.2 → element l p = element r p := by
  obtain ⟨ab, e1, v1, o1, l1, h1⟩ := mul_composes ext he a b ha hb ra rb
  obtain ⟨bc, e2, v2, o2, l2, h2⟩ := mul_composes ext he b c hb hc rb rc
  obtain ⟨l, e3, v3, o3, l3, h3⟩ := mul_composes ext he ab c v1 hc (room_of_normal o1) rc
  obtain ⟨r, e4, v4, o4, l4, h4⟩ := mul_composes ext he a bc ha v2 ra (room_of_normal o2)
  refine ⟨ab, bc, l, r, e1, e2, e3, e4, ?_, fun p hp => ?_⟩
  · rw [l3, l4, l1, l2, max_assoc]
  · rw [h3 p hp, h4 p hp, h1 p hp, h2 _ (element_sphere a ha p hp)]

/-- The element of `BMSTransformation()` is the identity. -/
theorem identity_element (ell : Int) (h1 : 1 ≤ ell) : ∃ e, bmsInit none none none normalOrder ell = .ok e ∧ Valid e ∧ e.order = normalOrder ∧ ∀ p, element e p = p := by
  obtain ⟨e, h, hv, hq, hvel, hS, ho, -⟩ := init_valid none none none normalOrder normal_mem ell h1 (fun _ h => by cases h) (fun _ h => by cases h) (fun _ h => by cases h)
  refine ⟨e, h, hv, ho, fun p => ?_⟩
  rw [element_eq e hv, normalV_normal e ho, superOf_normal e ho, hq, hvel, hS]
  show toOld (fun _ => 0) (act 1 0) p = p
  have : act 1 0 = fun X => X := by
    funext X
    unfold act
    rw [rot_one, boost_zero]
  rw [this, toOld_id]

/-- The identity is neutral on both sides. -/
theorem identity_neutral (ext : Ext) (he : SvdOk ext) (b : BMS) (hb : Valid b) (rb : Room b normalOrder) (ell : Int) (h1 : 1 ≤ ell) :
    ∃ e l r, bmsInit none none none normalOrder ell = .ok e ∧ e.mul ext b = .ok l ∧ b.mul ext e = .ok r ∧ ∀ p : Scri, Sphere p.2 → element l p = element b p ∧ element r p = element b p := by
  obtain ⟨e, h, hv, ho, hid⟩ := identity_element ell h1
  obtain ⟨l, e1, -, -, -, hl⟩ := mul_composes ext he e b hv hb (room_of_normal ho) rb
  obtain ⟨r, e2, -, -, -, hr⟩ := mul_composes ext he b e hb hv rb (room_of_normal ho)
  exact ⟨e, l, r, h, e1, e2, fun p hp => ⟨by rw [hl p hp, hid], by rw [hr p hp, hid]⟩⟩

/-- `inverse` gives the inverse element, in whatever order is asked for; without a given order, in the reverse order.  What is missing is `ell_max` below 12. -/
theorem inverse_element_partial (ext : Ext) (he : SvdOk ext) (b : BMS) (hb : Valid b) (o : Option Order) (ho : o.getD b.order.reverse ∈ orders) (ra : Room b normalOrder)
    (rb : 12 ≤ b.ellMax ∨ o.getD b.order.reverse = [.boost_velocity, .frame_rotation, .supertranslation]) :
    ∃ i, b.inverse ext o = .ok i ∧ Valid i ∧ i.order = o.getD b.order.reverse ∧ i.ellMax = b.ellMax ∧
      ∀ p : Scri, Sphere p.2 → element i (element b p) = p ∧ element b (element i p) = p := by
  obtain ⟨i, e, i1, i2, i3, i4, i5, i6⟩ := inverse_params ext he b hb o ho ra rb
  refine ⟨i, e, i1, i2, i3, fun p hp => ?_⟩
  have hq := hb.1.1
  have hv := normalV_lt b hb
  have nb := nice_act b.q hq _ hv
  have ni := nice_act i.q i1.1.1 _ (normalV_lt i i1)
  have nI := nice_actInv b.q _ hq hv
  have hA : act i.q (normalV i) = actInv b.q (normalV b) := funext i5
  constructor
  · rw [element_eq i i1, element_eq b hb, hA, toOld_toOld _ _ nb nI nb (act_actInv b.q _ hq hv) p hp]
    rw [toOld_congr (S' := fun _ => 0) (Λ' := fun X => X) (nice_comp nI nb) (fun r hr => by rw [i6 r hr]; ring) (fun X => actInv_act b.q _ hq hv X) p hp, toOld_id]
  · rw [element_eq i i1, element_eq b hb, hA, toOld_toOld _ _ nI nb nI (actInv_act b.q _ hq hv) p hp]
    rw [toOld_congr (S' := fun _ => 0) (Λ' := fun X => X) (nice_comp nb nI) (fun r hr => ?_) (fun X => act_actInv b.q _ hq hv X) p hp, toOld_id]
    rw [T_congr nI i6 r hr, T_neg, T_T nI nb (superOf b) r hr, T_of_eq (M := fun X => X) (fun X => act_actInv b.q _ hq hv X), T_id]
    ring

/-- The products of a transformation and its inverse are the identity.  What is missing is `ell_max` below 12, for which it is false (`inverse_mul_small_fails`). -/
theorem inverse_mul_partial (ext : Ext) (he : SvdOk ext) (b : BMS) (hb : Valid b) (h12 : 12 ≤ b.ellMax) :
    ∃ i l r, b.inverse ext = .ok i ∧ i.mul ext b = .ok l ∧ b.mul ext i = .ok r ∧ ∀ p : Scri, Sphere p.2 → element l p = p ∧ element r p = p := by
  have hrev : b.order.reverse ∈ orders := by
    have := hb.2.2.2.2
    simp only [orders, List.mem_cons, List.not_mem_nil, or_false] at this
    rcases this with h | h | h | h | h | h <;> rw [h] <;> decide
  obtain ⟨i, e, i1, i2, i3, i4⟩ := inverse_element_partial ext he b hb none hrev (Or.inl h12) (Or.inl h12)
  obtain ⟨l, e1, -, -, -, hl⟩ := mul_composes ext he i b i1 hb (Or.inl (by rw [i3]; exact h12)) (Or.inl h12)
  obtain ⟨r, e2, -, -, -, hr⟩ := mul_composes ext he b i hb i1 (Or.inl h12) (Or.inl (by rw [i3]; exact h12))
  exact ⟨i, l, r, e, e1, e2, fun p hp => ⟨by rw [hl p hp, (i4 p hp).2], by rw [hr p hp, (i4 p hp).1]⟩⟩

/-- For `ell_max` below 12 the inverse of a transformation in the normal order exists, but its product with the transformation raises `ValueError`. -/
theorem inverse_mul_small_fails (ext : Ext) (he : SvdOk ext) (b : BMS) (hb : Valid b) (hn : b.order = normalOrder) (h12 : b.ellMax < 12) :
    ∃ i, b.inverse ext = .ok i ∧ i.mul ext b = .error .valueError ∧ b.mul ext i = .error .valueError := by
  obtain ⟨i, e, i1, i2, i3, i4⟩ := inverse_element_partial ext he b hb none (by rw [hn]; decide) (room_of_normal hn) (Or.inr (by rw [hn]; rfl))
  have hi : i.order = [.boost_velocity, .frame_rotation, .supertranslation] := by rw [i2, hn]; rfl
  have hr : i.reorder ext normalOrder = .error .valueError := reorder_small_fails ext he i i1 normalOrder normal_mem (by
    unfold Room
    rw [i3, hi]
    rintro (h | h)
    · omega
    · exact h.1 rfl)
  obtain ⟨n, e2, -⟩ := reorder_preserves_element_partial ext he b hb normalOrder normal_mem (room_of_normal hn)
  refine ⟨i, e, ?_, ?_⟩
  · unfold BMS.mul
    rw [hr]
    rfl
  · unfold BMS.mul
    rw [e2, ok_bind, hr]
    rfl

/-- The element determines the parameters, up to the sign of the rotor: two transformations in the same order with the same element. -/
theorem element_determines (a b : BMS) (ha : Valid a) (hb : Valid b) (ho : a.order = b.order) (h : ∀ p : Scri, Sphere p.2 → element a p = element b p) :
    (a.q = b.q ∨ a.q = -b.q) ∧ a.v = b.v ∧ SEq (superOf a) (superOf b) := by
  have na := nice_act a.q ha.1.1 _ (normalV_lt a ha)
  have nb := nice_act b.q hb.1.1 _ (normalV_lt b hb)
  have h' : ∀ p : Scri, Sphere p.2 → toOld (superOf a) (act a.q (normalV a)) p = toOld (superOf b) (act b.q (normalV b)) p := by
    intro p hp
    rw [← element_eq a ha, ← element_eq b hb, h p hp]
  obtain ⟨h1, h2⟩ := toOld_inj na nb (nice_actInv a.q _ ha.1.1 (normalV_lt a ha)) (act_actInv a.q _ ha.1.1 (normalV_lt a ha)) h'
  obtain ⟨h3, h4⟩ := act_inj ha.1.1 hb.1.1 (normalV_lt a ha) (normalV_lt b hb) h1
  refine ⟨h4, ?_, h2⟩
  rw [← velFor_normalV a ha, ← velFor_normalV b hb, ho, h3]
  rcases h4 with h4 | h4
  · rw [h4]
  · rw [h4]
    unfold velFor
    split_ifs
    · rfl
    · have e : star (-b.q) = -star b.q := by apply Quaternion.ext <;> simp
      rw [e, rotateVec_negQ]

/-! ## What an order means -/

/-- A transformation in the normal order (supertranslation, rotation, boost) is `(rotation * boost) * supertranslation`; the right factor is applied first.  So the boost comes
before the rotation: its velocity is with respect to the frame before the rotation. -/
theorem product_of_parts (ext : Ext) (he : SvdOk ext) (q : Quaternion ℝ) (v : Vec) (S : Super) (ell : Int) (hq : Rotor q) (hv : dot v v < 1) (h1 : 1 ≤ ell) (hS : S.ell ≤ ell) :
    ∃ r b s t rb c, bmsInit (some q) none none normalOrder ell = .ok r ∧ bmsInit none (some v) none normalOrder ell = .ok b ∧ bmsInit none none (some S) normalOrder ell = .ok s ∧
      bmsInit (some q) (some v) (some S) normalOrder ell = .ok t ∧ r.mul ext b = .ok rb ∧ rb.mul ext s = .ok c ∧ ∀ p : Scri, Sphere p.2 → element c p = element t p := by
  have hq' : ∀ p, some q = some p → Rotor p := fun p h => by cases h; exact hq
  have hv' : ∀ w, some v = some w → dot w w < 1 := fun w h => by cases h; exact hv
  have hS' : ∀ s, some S = some s → s.ell ≤ ell := fun s h => by cases h; exact hS
  obtain ⟨r, er, r1, r2, r3, r4, r5, r6⟩ := init_valid (some q) none none normalOrder normal_mem ell h1 (fun _ h => by cases h) hq' (fun _ h => by cases h)
  obtain ⟨b, eb, b1, b2, b3, b4, b5, b6⟩ := init_valid none (some v) none normalOrder normal_mem ell h1 (fun _ h => by cases h) (fun _ h => by cases h) hv'
  obtain ⟨s, es, s1, s2, s3, s4, s5, s6⟩ := init_valid none none (some S) normalOrder normal_mem ell h1 hS' (fun _ h => by cases h) (fun _ h => by cases h)
  obtain ⟨t, et, t1, t2, t3, t4, t5, t6⟩ := init_valid (some q) (some v) (some S) normalOrder normal_mem ell h1 hS' hq' hv'
  obtain ⟨rb, erb, v1, o1, -, hrb⟩ := mul_composes ext he r b r1 b1 (room_of_normal r5) (room_of_normal b5)
  obtain ⟨c, ec, -, -, -, hc⟩ := mul_composes ext he rb s v1 s1 (room_of_normal o1) (room_of_normal s5)
  refine ⟨r, b, s, t, rb, c, er, eb, es, et, erb, ec, fun p hp => ?_⟩
  rw [hc p hp, hrb p hp]
  have n1 := nice_rot q hq.1
  have n2 := nice_boost v hv
  have E1 : ∀ p, element r p = toOld (fun _ => 0) (rot q) p := by
    intro p
    rw [element_eq r r1, normalV_normal r r5, superOf_normal r r5, r2, r3, r4]
    show toOld (fun _ => 0) (act q 0) p = _
    rw [show act q 0 = rot q from funext fun X => boost_zero _]
  have E2 : ∀ p, element b p = toOld (fun _ => 0) (boost v) p := by
    intro p
    rw [element_eq b b1, normalV_normal b b5, superOf_normal b b5, b2, b3, b4]
    show toOld (fun _ => 0) (act 1 v) p = _
    rw [show act 1 v = boost v from funext fun X => by unfold act; rw [rot_one]]
  have E3 : ∀ p, element s p = toOld S.f (fun X => X) p := by
    intro p
    rw [element_eq s s1, normalV_normal s s5, superOf_normal s s5, s2, s3, s4]
    show toOld S.f (act 1 0) p = _
    rw [show act 1 0 = fun X => X from funext fun X => by unfold act; rw [rot_one, boost_zero]]
  have E4 : ∀ p, element t p = toOld S.f (act q v) p := by
    intro p
    rw [element_eq t t1, normalV_normal t t5, superOf_normal t t5, t2, t3, t4]
    rfl
  rw [E1, E2, E4, toOld_toOld _ _ n1 n2 (nice_boost (-v) (by rwa [dot_neg_self])) (boost_neg_boost v hv) p hp, E3]
  rw [toOld_congr (S' := fun _ => 0) (Λ' := act q v) (nice_comp n2 n1) (fun r _ => by simp [T]) (fun _ => rfl) p hp]
  rw [toOld_toOld _ _ (nice_act q hq.1 v hv) nice_id nice_id (fun _ => rfl) p hp]
  exact toOld_congr (nice_act q hq.1 v hv) (fun r _ => by simp [T]) (fun _ => rfl) p hp

/-- A rotation about the `x` axis. -/
noncomputable def exQ : Quaternion ℝ := ⟨3 / 5, 4 / 5, 0, 0⟩

/-- A boost in the direction of the `z` axis. -/
noncomputable def exV : Vec := ![0, 0, 1 / 2]

theorem exQ_re : exQ.re = 3 / 5 := rfl
theorem exQ_imI : exQ.imI = 4 / 5 := rfl
theorem exQ_imJ : exQ.imJ = 0 := rfl
theorem exQ_imK : exQ.imK = 0 := rfl

theorem example_rotor : Rotor exQ := by
  refine ⟨?_, ?_⟩
  · rw [normSq_components, exQ_re, exQ_imI, exQ_imJ, exQ_imK]; norm_num
  · intro h
    have := congrArg QuaternionAlgebra.re h
    have h2 : ((-1 : Quaternion ℝ)).re = -1 := rfl
    rw [h2, exQ_re] at this
    norm_num at this

theorem example_velocity : dot exV exV < 1 := by
  unfold dot exV
  rw [Fin.sum_univ_three]
  simp
  norm_num

/-- The product in which the factors are applied as they are listed in the normal order, first the rotation and then the boost, is another element in general. -/
theorem listed_order_is_not_order_of_application :
    ∃ (q : Quaternion ℝ) (v : Vec), Rotor q ∧ dot v v < 1 ∧ ∀ (ext : Ext), SvdOk ext → ∃ r b t br,
      bmsInit (some q) none none = .ok r ∧ bmsInit none (some v) none = .ok b ∧ bmsInit (some q) (some v) none = .ok t ∧ b.mul ext r = .ok br ∧
      ¬ ∀ p : Scri, Sphere p.2 → element br p = element t p := by
  refine ⟨exQ, exV, example_rotor, example_velocity, fun ext he => ?_⟩
  have hq := example_rotor
  have hv := example_velocity
  have a0 := exQ_re
  have a1 := exQ_imI
  have a2 := exQ_imJ
  have a3 := exQ_imK
  have hve : exV = ![0, 0, 1 / 2] := rfl
  generalize exQ = q at *
  generalize exV = v at *
  have hq' : ∀ p, some q = some p → Rotor p := fun p h => by cases h; exact hq
  have hv' : ∀ w, some v = some w → dot w w < 1 := fun w h => by cases h; exact hv
  obtain ⟨r, er, r1, r2, r3, r4, r5, r6⟩ := init_valid (some q) none none normalOrder normal_mem 12 (by norm_num) (fun _ h => by cases h) hq' (fun _ h => by cases h)
  obtain ⟨b, eb, b1, b2, b3, b4, b5, b6⟩ := init_valid none (some v) none normalOrder normal_mem 12 (by norm_num) (fun _ h => by cases h) (fun _ h => by cases h) hv'
  obtain ⟨t, et, t1, t2, t3, t4, t5, t6⟩ := init_valid (some q) (some v) none normalOrder normal_mem 12 (by norm_num) (fun _ h => by cases h) hq' hv'
  obtain ⟨c, ec, c1, c2, c3, c4, c5⟩ := mul_params ext he b r b1 r1 (room_of_normal b5) (room_of_normal r5)
  refine ⟨r, b, t, c, er, eb, et, ec, fun hall => ?_⟩
  obtain ⟨-, hcv, -⟩ := element_determines c t c1 t1 (by rw [c2, t5]) hall
  have hV : dot (rotateVec q v) (rotateVec q v) < 1 := by rw [rotateVec_dot _ hq.1]; exact hv
  have := (act_inj (q := c.q) (p := q) (v := c.v) (w := rotateVec q v) c1.1.1 hq.1 c1.2.1 hV (fun s _ => by
    rw [c4, normalV_normal r r5, normalV_normal b b5, r2, r3, b2, b3]
    show boost 0 (rot q (boost v (rot 1 (null s)))) = _
    rw [boost_zero, rot_one, rot_boost q hq.1]
    rfl)).1
  rw [hcv, t3] at this
  have h2 := congrFun this 1
  rw [rotateVec_1] at h2
  simp [a0, a1, a2, a3, hve] at h2

/-! ## Lorentz transformations -/

/-- The two orders of a Lorentz transformation. -/
def lorentzOrders : List Order := [[.frame_rotation, .boost_velocity], [.boost_velocity, .frame_rotation]]

/-- A Lorentz transformation as the constructor makes it. -/
def LValid (L : Lorentz) : Prop := Rotor L.q ∧ dot L.v L.v < 1 ∧ 0 ≤ L.ellMax ∧ L.order ∈ lorentzOrders

theorem lorentz_left (o : Order) (ho : o ∈ lorentzOrders) (L : Lorentz) (h : L.order = o) (hq : Quaternion.normSq L.q = 1) (X : Four) : lorentz L.order L.q L.v X = act L.q (leftV L) X := by
  unfold leftV
  simp only [lorentzOrders, List.mem_cons, List.not_mem_nil, or_false] at ho
  rcases ho with rfl | rfl
  · rw [h, if_pos (by unfold RotFirst; decide)]; rfl
  · rw [h, if_neg (by unfold RotFirst; decide)]; exact rot_boost L.q hq L.v X

theorem complete_lorentz (o : Order) (ho : o ∈ lorentzOrders) : complete lorentzNormal (o.erase .supertranslation) = o := by
  simp only [lorentzOrders, List.mem_cons, List.not_mem_nil, or_false] at ho
  rcases ho with rfl | rfl <;> decide

theorem leftV_velFor (o : Order) (ho : o ∈ lorentzOrders) (q : Quaternion ℝ) (v : Vec) (hq : Quaternion.normSq q = 1) : leftV (made q (velFor o q v) o) = v := by
  have e : (made q (velFor o q v) o).order = o := complete_lorentz o ho
  unfold leftV
  rw [e]
  unfold velFor
  split_ifs
  · rfl
  · exact rotate_rotate_star q hq v

/-- `LorentzTransformation.reorder` keeps the transformation; the rotor is the same in both orders. -/
theorem lorentz_reorder (ext : Ext) (he : SvdOk ext) (L : Lorentz) (hL : LValid L) (o : Order) (ho : o ∈ lorentzOrders) :
    ∃ M, L.reorder ext o = .ok M ∧ LValid M ∧ M.order = o ∧ M.q = L.q ∧ ∀ X, lorentz M.order M.q M.v X = lorentz L.order L.q L.v X := by
  have hok : LOk L := ⟨hL.1, hL.2.1, hL.2.2.1⟩
  by_cases h : L.order = o
  · have e1 : L.copy = .ok (made L.q L.v L.order L.ellMax) := made_ok L.q L.v L.order L.ellMax hL.1.1 hL.2.1 hL.2.2.1
    have eo : (made L.q L.v L.order L.ellMax).order = L.order := complete_lorentz _ hL.2.2.2
    refine ⟨made L.q L.v L.order L.ellMax, ?_, ⟨hL.1, hL.2.1, hL.2.2.1, by rw [eo]; exact hL.2.2.2⟩, by rw [eo, h], rfl, ?_⟩
    · unfold Lorentz.reorder
      rw [if_pos h, e1]
      refine if_neg ?_
      rw [not_not]
      simp only [lorentzOrders, List.mem_cons, List.not_mem_nil, or_false] at ho
      rcases ho with rfl | rfl <;> decide
    · intro X
      rw [eo]
      rfl
  · have hmem : .frame_rotation ∈ o ∧ .boost_velocity ∈ o := by
      simp only [lorentzOrders, List.mem_cons, List.not_mem_nil, or_false] at ho
      rcases ho with rfl | rfl <;> decide
    have e := reorder_eq ext he L hok o hmem.1 hmem.2 h
    have eo : (made L.q (velFor o L.q (leftV L)) o).order = o := complete_lorentz o ho
    refine ⟨_, e, ⟨hL.1, velFor_lt _ _ _ hL.1.1 (leftV_lt L hok), by norm_num [made], by rw [eo]; exact ho⟩, eo, rfl, ?_⟩
    intro X
    rw [lorentz_left o ho _ eo hL.1.1, lorentz_left _ hL.2.2.2 L rfl hL.1.1, leftV_velFor o ho _ _ hL.1.1]
    rfl

/-- `LorentzTransformation.inverse` gives the inverse. -/
theorem lorentz_inverse (ext : Ext) (he : SvdOk ext) (L : Lorentz) (hL : LValid L) (o : Option Order) (ho : o.getD L.order.reverse ∈ lorentzOrders) :
    ∃ M, L.inverse ext o = .ok M ∧ LValid M ∧ M.order = o.getD L.order.reverse ∧ ∀ X, lorentz M.order M.q M.v (lorentz L.order L.q L.v X) = X ∧ lorentz L.order L.q L.v (lorentz M.order M.q M.v X) = X := by
  have hok : LOk L := ⟨hL.1, hL.2.1, hL.2.2.1⟩
  have hs := unit_star hL.1
  have e := inverse_eq ext he L hok o
  have hlt : dot (rotateVec (star L.q) (-leftV L)) (rotateVec (star L.q) (-leftV L)) < 1 := by
    rw [rotateVec_dot _ hs.1, dot_neg_self]
    exact leftV_lt L hok
  have eo : (made (star L.q) (velFor (o.getD L.order.reverse) (star L.q) (rotateVec (star L.q) (-leftV L))) (o.getD L.order.reverse)).order = o.getD L.order.reverse := complete_lorentz _ ho
  refine ⟨_, e, ⟨hs, velFor_lt _ _ _ hs.1 hlt, by norm_num [made], by rw [eo]; exact ho⟩, eo, ?_⟩
  intro X
  have h1 (Y : Four) := lorentz_left _ ho _ eo hs.1 Y
  have h2 (Y : Four) := lorentz_left _ hL.2.2.2 L rfl hL.1.1 Y
  rw [h1, h2, h1, h2, leftV_velFor _ ho _ _ hs.1]
  show act (star L.q) (rotateVec (star L.q) (-leftV L)) _ = _ ∧ act L.q (leftV L) (act (star L.q) (rotateVec (star L.q) (-leftV L)) X) = _
  rw [act_inv L.q _ hL.1.1, act_inv L.q _ hL.1.1]
  exact ⟨actInv_act L.q _ hL.1.1 (leftV_lt L hok) X, act_actInv L.q _ hL.1.1 (leftV_lt L hok) X⟩

/-- `LorentzTransformation.__mul__` composes. -/
theorem lorentz_mul (ext : Ext) (he : SvdOk ext) (L1 L2 : Lorentz) (h1 : LValid L1) (h2 : LValid L2) :
    ∃ L, L1.mul ext L2 = .ok L ∧ ∀ X, act L.q L.v X = lorentz L2.order L2.q L2.v (lorentz L1.order L1.q L1.v X) := by
  obtain ⟨L, e, -, -, h⟩ := mul_eq ext he L1 L2 ⟨h1.1, h1.2.1, h1.2.2.1⟩ ⟨h2.1, h2.2.1, h2.2.2.1⟩
  refine ⟨L, e, fun X => ?_⟩
  rw [h, lorentz_left _ h1.2.2.2 L1 rfl h1.1.1, lorentz_left _ h2.2.2.2 L2 rfl h2.1.1]

/-! ## The rotor -1 -/

/-- The rotor -1 rotates as the rotor 1 does, but a Lorentz transformation with it cannot be inverted, reordered or multiplied. -/
theorem minus_one_fails (ext : Ext) (v : Vec) (ell : Int) (L : Lorentz) (hL : L = { q := -1, v := v, order := [.frame_rotation, .boost_velocity], ellMax := ell }) :
    L.inverse ext = .error .other ∧ L.reorder ext [.boost_velocity, .frame_rotation] = .error .other ∧ (∀ M, L.mul ext M = .error .other) := by
  have h : lorentzToSpin L = .error .other := by
    unfold lorentzToSpin
    rw [hL]
    show (do
      let _ ← rotationAxis (-1)
      _) = _
    rw [minus_one_rotation]
    rfl
  refine ⟨?_, ?_, fun M => ?_⟩
  · unfold Lorentz.inverse
    rw [h]
    rfl
  · unfold Lorentz.reorder
    rw [if_neg (by decide), if_neg (by rw [hL]; exact of_decide_eq_true rfl), h]
    rfl
  · unfold Lorentz.mul
    rw [h]
    rfl

/-! ## Examples: the hypotheses can be met -/

example : ∃ b : BMS, Valid b ∧ Room b [.boost_velocity, .frame_rotation, .supertranslation] ∧ b.q ≠ 1 ∧ b.v ≠ 0 ∧ b.S.f ≠ 0 :=
  ⟨{ q := exQ, v := exV, S := { ell := 2, f := fun r => r 0 * r 1 }, order := [.boost_velocity, .supertranslation, .frame_rotation], ellMax := 12 },
    ⟨example_rotor, example_velocity, by norm_num, by norm_num, by decide⟩, Or.inl le_rfl,
    fun h => by
      have := congrArg QuaternionAlgebra.re h
      have h2 : ((1 : Quaternion ℝ)).re = 1 := rfl
      rw [h2] at this
      change exQ.re = 1 at this
      rw [exQ_re] at this
      norm_num at this,
    fun h => by simpa [exV] using congrFun h 2, fun h => by simpa using congrFun h ![1, 1, 0]⟩

example : ∃ b : BMS, Valid b ∧ ¬ Room b [.frame_rotation, .supertranslation, .boost_velocity] :=
  ⟨{ q := exQ, v := exV, S := { ell := 2, f := fun r => r 0 * r 1 }, order := [.supertranslation, .frame_rotation, .boost_velocity], ellMax := 8 },
    ⟨example_rotor, example_velocity, by norm_num, by norm_num, by decide⟩, by
      unfold Room
      rintro (h | h)
      · norm_num at h
      · exact absurd h.2 (by decide)⟩

end Verif.Props.Bms
