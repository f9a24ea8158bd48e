import Verif.Model.Frames
import Verif.Props.Align

/-!
# C76: coprecessing and corotating frames
-/

namespace Verif.Props.Frames

open Verif Verif.Modes Verif.ModeCalc Verif.Align Verif.Frames Verif.Spec.Align Verif.Spec.AngMom Verif.Spec.Rotation Verif.Props.AngMomCov Verif.Lemmas.Align Verif.Props.Align ComplexConjugate
open Verif.AbdTransform (rotateVec vecQuat)

/-! ## The nearest time -/

theorem argmin_fold (g : Nat → ℝ) (l : List Nat) (b : Nat) : (l.foldl (argminStep g) b = b ∨ l.foldl (argminStep g) b ∈ l) ∧ g (l.foldl (argminStep g) b) ≤ g b ∧ ∀ i ∈ l, g (l.foldl (argminStep g) b) ≤ g i := by
  induction l generalizing b with
  | nil => simp
  | cons a l ih =>
    rw [List.foldl_cons]
    obtain ⟨h1, h2, h3⟩ := ih (argminStep g b a)
    have hs : (argminStep g b a = a ∨ argminStep g b a = b) ∧ g (argminStep g b a) ≤ g a ∧ g (argminStep g b a) ≤ g b := by
      unfold argminStep
      split
      · rename_i h; exact ⟨Or.inl rfl, le_rfl, h.le⟩
      · rename_i h; exact ⟨Or.inr rfl, not_lt.1 h, le_rfl⟩
    refine ⟨?_, h2.trans hs.2.2, ?_⟩
    · rcases h1 with h1 | h1
      · rw [h1]
        rcases hs.1 with h | h
        · right; rw [h]; simp
        · left; exact h
      · right; simp [h1]
    · intro i hi
      rcases List.mem_cons.1 hi with rfl | hi
      · exact h2.trans hs.2.1
      · exact h3 i hi

/-- C76: `argmin` finds a time nearest to `x`. -/
theorem argmin_spec (t : List ℝ) (x : ℝ) (hn : 0 < t.length) : ∃ i, argmin t x = .ok i ∧ i < t.length ∧ ∀ (j : Nat) y, t[j]? = some y → |t.getD i 0 - x| ≤ |y - x| := by
  obtain ⟨h1, h2, h3⟩ := argmin_fold (fun i => |t.getD i 0 - x|) (List.range t.length) 0
  refine ⟨(List.range t.length).foldl (argminStep fun i => |t.getD i 0 - x|) 0, ?_, ?_, fun j y hj => ?_⟩
  · unfold argmin
    rw [if_neg]
    simp
    intro h
    rw [h] at hn
    simp at hn
  · rcases h1 with h1 | h1
    · rw [h1]; exact hn
    · exact List.mem_range.1 h1
  · have hl := (List.getElem?_eq_some_iff.1 hj).1
    refine (h3 j (List.mem_range.2 hl)).trans (le_of_eq ?_)
    rw [List.getD_eq_getElem?_getD, hj]
    rfl

/-! ## Coprecessing frames -/

theorem minimalRotation_spec (ext : Frames.Ext) (t : List ℝ) (k : Nat) (R : List (Quaternion ℝ)) :
    (minimalRotation ext t k R).length = R.length ∧ ∀ (i : Nat) F, R[i]? = some F → ∃ x, (minimalRotation ext t k R)[i]? = some (F * expZ x) := by
  induction k generalizing R with
  | zero =>
    refine ⟨rfl, fun i F h => ⟨0, ?_⟩⟩
    have : expZ 0 = 1 := by
      unfold expZ
      rw [Real.cos_zero, Real.sin_zero]
      rfl
    rw [this, mul_one]
    exact h
  | succ k ih =>
    obtain ⟨h1, h2⟩ := ih ((List.range R.length).map fun i => R.getD i 1 * expZ (ext.halfGamma R t i))
    refine ⟨by
      show (minimalRotation ext t k _).length = _
      rw [h1, List.length_map, List.length_range], fun i F h => ?_⟩
    have hi := (List.getElem?_eq_some_iff.1 h).1
    obtain ⟨x, hx⟩ := h2 i (F * expZ (ext.halfGamma R t i)) (by
      rw [List.getElem?_map, List.getElem?_range hi]
      show some (R.getD i 1 * _) = _
      rw [List.getD_eq_getElem?_getD, h]
      rfl)
    refine ⟨ext.halfGamma R t i + x, ?_⟩
    show (minimalRotation ext t k _)[i]? = _
    rw [hx, mul_assoc, expZ_add]

theorem dominantVectors_spec (ext : Align.Ext) (a b : Int) (data : List (Row ℂ)) (rough : Vec) (idx : Nat) (hidx : idx < data.length) (he : Eigh ext a b) :
    (dominantVectors ext a b data rough idx).length = data.length ∧
    (∀ (i : Nat) d, data[i]? = some d → ∃ v, (dominantVectors ext a b data rough idx)[i]? = some v ∧ Spec.Align.Top (LLMatrix d (LMRange a b)) v) ∧
    ∃ v, (dominantVectors ext a b data rough idx)[idx]? = some v ∧ 0 ≤ dot rough v := by
  set f : Int → Dominant.V := fun i => match data[i.toNat]? with
    | some d => toV (ext.eigh (LLMatrix d (LMRange a b)))
    | none => ⟨0, 0, 0⟩ with hf
  have hget : ∀ (i : Nat), i < data.length → (dominantVectors ext a b data rough idx)[i]? = some (ofV (Dominant.dominant data.length f (toV rough) idx (i : Int))) := by
    intro i hi
    unfold dominantVectors
    rw [List.getElem?_map, List.getElem?_range hi]
    rfl
  have hfi : ∀ (i : Nat) d, data[i]? = some d → f i = toV (ext.eigh (LLMatrix d (LMRange a b))) := by
    intro i d hd
    rw [hf]
    simp only [Int.toNat_natCast, hd]
  have hU : Props.Dominant.Units data.length f := by
    intro i h1 h2
    obtain ⟨n, rfl⟩ := Int.eq_ofNat_of_zero_le h1
    have hn : n < data.length := by exact_mod_cast h2
    rw [hfi n _ (List.getElem?_eq_getElem hn)]
    have hx := (he data[n]).1
    rw [Fin.sum_univ_three] at hx
    show ext.eigh _ 0 * ext.eigh _ 0 + ext.eigh _ 1 * ext.eigh _ 1 + ext.eigh _ 2 * ext.eigh _ 2 = (1 : ℝ)
    rw [← hx]
    ring
  refine ⟨by unfold dominantVectors; rw [List.length_map, List.length_range], fun i d hd => ?_, _, hget idx hidx, ?_⟩
  · have hi := (List.getElem?_eq_some_iff.1 hd).1
    refine ⟨_, hget i hi, ?_⟩
    have htop := he d
    rcases Props.Dominant.dominant_sign data.length idx (by omega) (by omega) f hU (toV rough) i (by omega) (by omega) with h | h
    · rw [h, hfi i d hd]
      have : ofV (toV (ext.eigh (LLMatrix d (LMRange a b)))) = ext.eigh (LLMatrix d (LMRange a b)) := by
        funext j; fin_cases j <;> rfl
      rw [this]
      exact htop
    · rw [h, hfi i d hd]
      have : ofV (toV (ext.eigh (LLMatrix d (LMRange a b)))).neg = -ext.eigh (LLMatrix d (LMRange a b)) := by
        funext j
        fin_cases j
        · exact mul_neg_one _
        · exact mul_neg_one _
        · exact mul_neg_one _
      rw [this]
      exact Top.neg htop
  · exact Props.Dominant.dominant_side data.length idx (by omega) (by omega) f hU (toV rough)

/-- What is assumed of the damped integration: one rotor per time, starting from the first. -/
def Slowing (ext : Frames.Ext) : Prop := ∀ R t i, R.length = t.length → (ext.slowing R t i).length = t.length ∧ (ext.slowing R t i).head? = R.head?

/-- How many of the rotors are those of the coprecessing frame: all, or those up to the time nearest to the start of the transition. -/
noncomputable def kept (t : List ℝ) (transition : Option (ℝ × ℝ)) (i : Nat) : Prop :=
  ∀ a b, transition = some (a, b) → ∃ i0, argmin t a = .ok i0 ∧ i ≤ i0

theorem coprecessingRotors_spec (ext : Frames.Ext) (t : List ℝ) (dpa : List Vec) (transition : Option (ℝ × ℝ)) (hs : Slowing ext) (hn : 0 < t.length) (hl : dpa.length = t.length)
    (hu : ∀ v ∈ dpa, ∑ i, v i ^ 2 = 1) :
    ∃ R, coprecessingRotors ext t dpa transition = .ok R ∧ R.length = t.length ∧
      ∀ (i : Nat) v, dpa[i]? = some v → kept t transition i → ∃ F, R[i]? = some F ∧ UnitRotor F ∧ rotateVec F zHat = v := by
  set R0 := dpa.map fun q => rotorTo (normalized (vecQuat q)) with hR0
  obtain ⟨m1, m2⟩ := minimalRotation_spec ext t 3 R0
  have hR0l : R0.length = t.length := by rw [hR0, List.length_map, hl]
  have key : ∀ (i : Nat) v, dpa[i]? = some v → ∃ F, (minimalRotation ext t 3 R0)[i]? = some F ∧ UnitRotor F ∧ rotateVec F zHat = v := by
    intro i v hv
    have hvu := hu v (List.mem_of_getElem? hv)
    obtain ⟨x, hx⟩ := m2 i (rotorTo (vecQuat v)) (by rw [hR0, List.getElem?_map, hv]; exact congrArg some (congrArg rotorTo (normalized_unit v hvu)))
    obtain ⟨h1, h2⟩ := rotorTo_spec v hvu
    exact ⟨_, hx, Lemmas.Align.unit_mul h1 (expZ_unit x), by rw [Props.AbdTransform.rotateVec_mul, expZ_zHat, h2]⟩
  rcases transition with _ | ⟨a, b⟩
  · exact ⟨_, rfl, by rw [m1, hR0l], fun i v hv _ => key i v hv⟩
  · obtain ⟨i0, e0, l0, -⟩ := argmin_spec t a hn
    obtain ⟨i1, e1, l1, -⟩ := argmin_spec t b hn
    obtain ⟨s1, s2⟩ := hs ((minimalRotation ext t 3 R0).drop i0) (t.drop i0) i1 (by rw [List.length_drop, List.length_drop, m1, hR0l])
    refine ⟨(minimalRotation ext t 3 R0).take i0 ++ ext.slowing ((minimalRotation ext t 3 R0).drop i0) (t.drop i0) i1, ?_, ?_, fun i v hv hk => ?_⟩
    · show (argmin t a >>= _) = _
      rw [e0]
      show (argmin t b >>= _) = _
      rw [e1]
      rfl
    · rw [List.length_append, List.length_take, m1, hR0l, s1, List.length_drop]
      omega
    · obtain ⟨j, ej, hj⟩ := hk a b rfl
      have : j = i0 := by rw [e0] at ej; exact (Except.ok.inj ej).symm
      subst this
      obtain ⟨F, hF, hF'⟩ := key i v hv
      refine ⟨F, ?_, hF'⟩
      have hlen : ((minimalRotation ext t 3 R0).take j).length = j := by rw [List.length_take, m1, hR0l]; omega
      rcases Nat.lt_or_eq_of_le hj with h | h
      · rw [List.getElem?_append_left (by omega), List.getElem?_take, if_pos h, hF]
      · subst h
        rw [List.getElem?_append_right (by omega), hlen, Nat.sub_self, ← List.head?_eq_getElem?, s2, List.head?_drop, hF]

/-- Rotation by one rotor per time. -/
theorem rotateWave_series (w : Wave) (hell : 0 ≤ w.ellMin) (hn : 2 ≤ w.t.length) (hd : w.data.length = w.t.length) (hf : w.frame.length = 0 ∨ w.frame.length = w.t.length)
    (R : List (Quaternion ℝ)) (hR : R.length = w.t.length) (D tmp : Row ℂ) :
    ∃ W l, rotateWave w (.arr (.vec R)) D tmp = (W, none) ∧ W.frame = .vec l ∧ W.ellMin = w.ellMin ∧ W.ellMax = w.ellMax ∧ l.length = w.t.length ∧ W.data.length = w.t.length ∧
      ∀ (i : Nat) d F, w.data[i]? = some d → R[i]? = some F → l[i]? = some (frameOf w.frame i * F) ∧ ∃ d', W.data[i]? = some d' ∧ RowRotated w.ellMin w.ellMax F d d' := by
  have e := (Props.Rotation.rotate_list ⟨w.ellMin, w.ellMax, w.data, .vec w.frame⟩ R D tmp (by omega)).2
  obtain ⟨h1, h2, l, h3, h4, h5⟩ := Props.Rotation.series_ok ⟨w.ellMin, w.ellMax, w.data, .vec w.frame⟩ w.frame ⟨rfl, by
    show _ ∨ _ ∨ w.frame.length = w.data.length
    rw [hd]
    rcases hf with h | h
    · exact Or.inl h
    · exact Or.inr (Or.inr h)⟩ hell R D (by show _ = w.data.length; omega) (by omega) (by omega)
  refine ⟨_, l, ?_, h3.1, h2.1, h2.2.1, by rw [h4]; exact hd, by rw [h2.2.2.1]; exact hd, ?_⟩
  · show Rotation.rotate _ _ _ _ = _
    rw [e]
    exact Prod.ext rfl h1
  intro i d F hid hiF
  have hi := (List.getElem?_eq_some_iff.1 hid).1
  have hFr : frameOf R i = F := by
    rw [Props.Rotation.frameOf_getD (by omega), List.getD_eq_getElem?_getD, hiF]; rfl
  have hil : i < l.length := by rw [h4]; exact hi
  have hli : l[i]? = some (frameOf w.frame i * F) := by
    rw [← hFr, ← h5 i hi, Props.Rotation.frameOf_getD (by rw [h4]; show w.data.length ≠ 1; omega), List.getD_eq_getElem?_getD, List.getElem?_eq_getElem hil]
    rfl
  refine ⟨hli, ?_⟩
  have hi' : i < (Verif.Rotation.rotateSeries ⟨w.ellMin, w.ellMax, w.data, .vec w.frame⟩ R D).1.data.length := by rw [h2.2.2.1]; exact hi
  refine ⟨_, List.getElem?_eq_getElem hi', fun ell m a1 a2 a3 a4 => ?_⟩
  have h := h2.2.2.2 i ell m ⟨hi, a1, a2, a3, a4⟩
  rw [hFr] at h
  unfold mode at h
  rw [List.getElem?_eq_getElem hi', h2.1] at h
  simp only [hid] at h
  exact h

/-- C76: `to_coprecessing_frame` succeeds, and at every time (until the transition) it multiplies the frame by a unit rotor whose z axis is a dominant direction of `LL`; in the modes that it leaves behind,
the z axis is a dominant direction.  At the given index it is on the side of the rough direction. -/
theorem coprecessing (ext : Frames.Ext) (w : Wave) (rough : Vec) (idx : Option Nat) (transition : Option (ℝ × ℝ)) (D tmp : Row ℂ) (hell : 0 ≤ w.ellMin) (hn : 2 ≤ w.t.length)
    (hd : w.data.length = w.t.length) (hf : w.frame.length = 0 ∨ w.frame.length = w.t.length) (hidx : ∀ k, idx = some k → k < w.t.length) (he : Eigh ext.align w.ellMin w.ellMax) (hs : Slowing ext) :
    ∃ W l, toCoprecessing ext w rough idx transition D tmp = .ok (W, 2) ∧ W.frame = .vec l ∧ W.ellMin = w.ellMin ∧ W.ellMax = w.ellMax ∧ l.length = w.t.length ∧ W.data.length = w.t.length ∧
      ∀ (i : Nat) d, w.data[i]? = some d → kept w.t transition i → ∃ F d', UnitRotor F ∧ l[i]? = some (frameOf w.frame i * F) ∧ W.data[i]? = some d' ∧ RowRotated w.ellMin w.ellMax F d d' ∧
        ZDominant w.ellMin w.ellMax (fn w.ellMin d') ∧ (i = idx.getD (w.t.length / 8) → 0 ≤ dot rough (rotateVec F zHat)) := by
  have hk : idx.getD (w.t.length / 8) < w.data.length := by
    rw [hd]
    rcases h : idx with _ | k
    · show w.t.length / 8 < _; omega
    · exact hidx k h
  obtain ⟨d1, d2, v0, d3, d4⟩ := dominantVectors_spec ext.align w.ellMin w.ellMax w.data rough (idx.getD (w.t.length / 8)) hk he
  obtain ⟨R, r1, r2, r3⟩ := coprecessingRotors_spec ext w.t (dominantVectors ext.align w.ellMin w.ellMax w.data rough (idx.getD (w.t.length / 8) : Nat)) transition hs (by omega) (by rw [d1, hd]) (by
    intro v hv
    obtain ⟨i, hi, hiv⟩ := List.getElem_of_mem hv
    obtain ⟨v', h1, h2⟩ := d2 i _ (List.getElem?_eq_getElem (by rw [← d1]; exact hi))
    rw [List.getElem?_eq_getElem hi, hiv] at h1
    rw [Option.some.inj h1]
    exact h2.1)
  obtain ⟨W, l, w1, w2, w3, w4, w5, w6, w7⟩ := rotateWave_series w hell hn hd hf R r2 D tmp
  refine ⟨W, l, ?_, w2, w3, w4, w5, w6, fun i d hi hkept => ?_⟩
  · show (coprecessingRotors ext w.t _ transition >>= _) = _
    rw [r1]
    simp only [ok_bind, w1]
    rfl
  obtain ⟨v, hv1, hv2⟩ := d2 i d hi
  obtain ⟨F, hF1, hF2, hF3⟩ := r3 i v hv1 hkept
  obtain ⟨hl, d', hd1, hd2⟩ := w7 i d F hi hF1
  refine ⟨F, d', hF2, hl, hd1, hd2, dominant_rotated hell hF2 hd2 hv2 (Or.inl hF3), ?_⟩
  rintro rfl
  rw [hF3]
  rw [hv1] at d3
  rw [Option.some.inj d3]
  exact d4

/-! ## Corotating frames -/

theorem unit_neg {R : Quaternion ℝ} (h : UnitRotor R) : UnitRotor (-R) := by
  unfold UnitRotor at *
  rw [Quaternion.normSq_neg, h]

theorem star_neg' (R : Quaternion ℝ) : star (-R) = -star R := by
  apply QuaternionAlgebra.ext
  · show (star (-R)).re = (-star R).re
    rw [Quaternion.re_star, Quaternion.re_neg, Quaternion.re_neg, Quaternion.re_star]
  · show (star (-R)).imI = (-star R).imI
    rw [Quaternion.imI_star, Quaternion.imI_neg, Quaternion.imI_neg, Quaternion.imI_star]
  · show (star (-R)).imJ = (-star R).imJ
    rw [Quaternion.imJ_star, Quaternion.imJ_neg, Quaternion.imJ_neg, Quaternion.imJ_star]
  · show (star (-R)).imK = (-star R).imK
    rw [Quaternion.imK_star, Quaternion.imK_neg, Quaternion.imK_neg, Quaternion.imK_star]

theorem rotateVec_neg_rotor (R : Quaternion ℝ) (v : Vec) : rotateVec (-R) v = rotateVec R v := by
  funext i
  fin_cases i
  · show rotateVec _ v 0 = rotateVec _ v 0
    rw [Verif.Lemmas.Bms.rotateVec_0, Verif.Lemmas.Bms.rotateVec_0, Quaternion.re_neg, Quaternion.imI_neg, Quaternion.imJ_neg, Quaternion.imK_neg]; ring
  · show rotateVec _ v 1 = rotateVec _ v 1
    rw [Verif.Lemmas.Bms.rotateVec_1, Verif.Lemmas.Bms.rotateVec_1, Quaternion.re_neg, Quaternion.imI_neg, Quaternion.imJ_neg, Quaternion.imK_neg]; ring
  · show rotateVec _ v 2 = rotateVec _ v 2
    rw [Verif.Lemmas.Bms.rotateVec_2, Verif.Lemmas.Bms.rotateVec_2, Quaternion.re_neg, Quaternion.imI_neg, Quaternion.imJ_neg, Quaternion.imK_neg]; ring

/-- The square root that is taken in `corotating_frame` is, up to its sign, the inverse of the one that takes the z axis to `v`. -/
theorem sqrt_reverse (v : Vec) : sqrtQ (-vecQuat zHat * vecQuat v) = star (rotorTo (vecQuat v)) ∨ sqrtQ (-vecQuat zHat * vecQuat v) = -star (rotorTo (vecQuat v)) := by
  have hq : -vecQuat zHat * vecQuat v = star (-vecQuat v * vecQuat zHat) := by
    have hs : ∀ u : Vec, star (vecQuat u) = -vecQuat u := by
      intro u
      apply QuaternionAlgebra.ext
      · show (star (vecQuat u)).re = (-vecQuat u).re
        rw [Quaternion.re_star, Quaternion.re_neg, vecQuat_re]; ring
      · rfl
      · rfl
      · rfl
    rw [star_mul, star_neg', hs, hs, neg_neg]
  rw [hq]
  unfold rotorTo
  set q := -vecQuat v * vecQuat zHat
  have hn : Quaternion.normSq (star q) = Quaternion.normSq q := Quaternion.normSq_star q
  have ha : absQ (star q) = absQ q := by unfold absQ; rw [hn]
  unfold sqrtQ
  rw [hn, ha, Quaternion.re_star]
  by_cases h1 : Quaternion.normSq q = 0
  · rw [if_pos h1, if_pos h1]; left; simp
  rw [if_neg h1, if_neg h1]
  by_cases h2 : absQ q + q.re = 0
  · rw [if_pos h2, if_pos h2]
    right
    apply QuaternionAlgebra.ext
    · show (0 : ℝ) = (-star (quat 0 (√(absQ q)) 0 0)).re
      rw [Quaternion.re_neg, Quaternion.re_star]; show (0 : ℝ) = -0; ring
    · show √(absQ q) = (-star (quat 0 (√(absQ q)) 0 0)).imI
      rw [Quaternion.imI_neg, Quaternion.imI_star]; show _ = - -(√(absQ q)); ring
    · show (0 : ℝ) = (-star (quat 0 (√(absQ q)) 0 0)).imJ
      rw [Quaternion.imJ_neg, Quaternion.imJ_star]; show (0 : ℝ) = - -0; ring
    · show (0 : ℝ) = (-star (quat 0 (√(absQ q)) 0 0)).imK
      rw [Quaternion.imK_neg, Quaternion.imK_star]; show (0 : ℝ) = - -0; ring
  · rw [if_neg h2, if_neg h2]
    left
    simp only
    generalize √(1 / 2 / (absQ q + q.re)) = c
    apply QuaternionAlgebra.ext
    · refine Eq.trans ?_ (Quaternion.re_star _).symm
      rfl
    · refine Eq.trans ?_ (Quaternion.imI_star _).symm
      show (star q).imI * c = -(q.imI * c)
      rw [Quaternion.imI_star]; ring
    · refine Eq.trans ?_ (Quaternion.imJ_star _).symm
      show (star q).imJ * c = -(q.imJ * c)
      rw [Quaternion.imJ_star]; ring
    · refine Eq.trans ?_ (Quaternion.imK_star _).symm
      show (star q).imK * c = -(q.imK * c)
      rw [Quaternion.imK_star]; ring

/-- C76: the correction takes the z axis to the mean direction. -/
theorem correction_rotor (v : Vec) (hv : ∑ i, v i ^ 2 = 1) : UnitRotor (sqrtQ (-vecQuat zHat * vecQuat v))⁻¹ ∧ rotateVec (sqrtQ (-vecQuat zHat * vecQuat v))⁻¹ zHat = v := by
  obtain ⟨h1, h2⟩ := rotorTo_spec v hv
  rcases sqrt_reverse v with h | h
  · rw [h, Verif.Rotation.unit_inv (Verif.Rotation.unit_star h1), star_star]
    exact ⟨h1, h2⟩
  · rw [h, Verif.Rotation.unit_inv (unit_neg (Verif.Rotation.unit_star h1)), star_neg', star_star, rotateVec_neg_rotor]
    exact ⟨unit_neg h1, h2⟩

theorem inFrame_eq (R : Quaternion ℝ) (V : Vec) : inFrame R V = rotateVec (star R) V := by
  unfold inFrame rotateVec
  rw [star_star]
  rfl

theorem absQ_unit {F : Quaternion ℝ} (h : UnitRotor F) : absQ F = 1 := by
  unfold absQ
  rw [(h : Quaternion.normSq F = 1), Real.sqrt_one]

theorem smul_unit {F : Quaternion ℝ} (h : UnitRotor F) : (absQ F)⁻¹ • F = F := by
  rw [absQ_unit h]; simp

/-- What is assumed of the integration of the angular velocity: unit rotors, one per time. -/
def Integrates (ext : Frames.Ext) : Prop := ∀ t om R0, UnitRotor R0 → (ext.integrate t om R0).length = t.length ∧ ∀ F ∈ ext.integrate t om R0, UnitRotor F

/-- The sum of the vectors of a list. -/
noncomputable def total (l : List Vec) : Vec := fun i => (l.map fun v => v i).sum

theorem total_rotate (R : Quaternion ℝ) (l : List Vec) : total (l.map (rotateVec R)) = rotateVec R (total l) := by
  induction l with
  | nil =>
    have : total ([] : List Vec) = 0 := by funext i; rfl
    show total [] = _
    rw [this]
    have := Verif.Lemmas.Bms.rotateVec_smul R 0 0
    simpa using this.symm
  | cons v l ih =>
    have h : ∀ (u : Vec) (k : List Vec), total (u :: k) = u + total k := by intro u k; funext i; simp [total]
    rw [List.map_cons, h, h, ih, Verif.Lemmas.Bms.rotateVec_add]

/-- C76: with a `z_alignment_region`, the frames are the integrated ones times one unit rotor, for which the mean of the dominant directions in the region, taken in the corrected frames, is along the
positive z axis (and as long as before). -/
theorem region_aligned_partial (ext : Frames.Ext) (w : Wave) (frame : List (Quaternion ℝ)) (omega : List Vec) (i1 i2 : Nat) (c : Quaternion ℝ)
    (hmean : total (List.zipWith inFrame (slice frame i1 i2) (dominantVectors ext.align w.ellMin w.ellMax (slice w.data i1 i2) (omega.getD (max 0 ((i1 : Int) - 10) + 10).toNat 0) 0)) ≠ 0)
    (h : correction ext w frame omega i1 i2 = .ok c) :
    UnitRotor c ∧ ∃ s : ℝ, 0 < s ∧ total (List.zipWith inFrame ((slice frame i1 i2).map (· * c)) (dominantVectors ext.align w.ellMin w.ellMax (slice w.data i1 i2) (omega.getD (max 0 ((i1 : Int) - 10) + 10).toNat 0) 0)) = s • zHat := by
  unfold correction at h
  rcases hr : pyGet omega (max 0 ((i1 : Int) - 10) + 10) with e | rough
  · simp only [hr] at h; cases h
  simp only [hr, ok_bind] at h
  by_cases hi : i2 ≤ i1
  · rw [if_pos hi] at h; cases h
  rw [if_neg hi] at h
  have hrough : omega.getD (max 0 ((i1 : Int) - 10) + 10).toNat 0 = rough := by
    obtain ⟨k, hk⟩ : ∃ k : Nat, max 0 ((i1 : Int) - 10) + 10 = k := ⟨_, (Int.toNat_of_nonneg (by omega)).symm⟩
    rw [hk] at hr ⊢
    rw [Int.toNat_natCast, List.getD_eq_getElem?_getD, Props.Align.pyGet_nat hr]
    rfl
  rw [hrough] at hmean ⊢
  set V := dominantVectors ext.align w.ellMin w.ellMax (slice w.data i1 i2) rough 0
  set Z := List.zipWith inFrame (slice frame i1 i2) V with hZ
  have hZne : Z ≠ [] := by
    intro h0
    apply hmean
    rw [h0]
    rfl
  have hlen : (0 : ℝ) < Z.length := by exact_mod_cast List.length_pos_iff.2 hZne
  have hm : meanVec Z = (Z.length : ℝ)⁻¹ • total Z := by
    funext i
    exact div_eq_inv_mul _ _
  set a := absQ (vecQuat (meanVec Z)) with ha
  have hns : Quaternion.normSq (vecQuat (meanVec Z)) = ∑ i, meanVec Z i ^ 2 := by
    rw [Quaternion.normSq_def', vecQuat_re, vecQuat_I, vecQuat_J, vecQuat_K, Fin.sum_univ_three]; ring
  have hmne : meanVec Z ≠ 0 := by
    rw [hm]
    exact smul_ne_zero (inv_pos.2 hlen).ne' hmean
  have hapos : 0 < a := by
    rw [ha]
    unfold absQ
    rw [hns]
    refine Real.sqrt_pos.2 (lt_of_le_of_ne (Finset.sum_nonneg fun i _ => sq_nonneg _) fun h0 => hmne ?_)
    funext i
    have := (Finset.sum_eq_zero_iff_of_nonneg fun i _ => sq_nonneg (meanVec Z i)).1 h0.symm i (Finset.mem_univ i)
    exact pow_eq_zero_iff (by norm_num) |>.1 this
  have hasq : a ^ 2 = ∑ i, meanVec Z i ^ 2 := by
    rw [ha]
    unfold absQ
    rw [hns, Real.sq_sqrt (Finset.sum_nonneg fun i _ => sq_nonneg _)]
  set u : Vec := a⁻¹ • meanVec Z with hu
  have hu1 : ∑ i, u i ^ 2 = 1 := by
    have : ∀ i, u i ^ 2 = (a⁻¹) ^ 2 * meanVec Z i ^ 2 := by intro i; rw [hu]; show (a⁻¹ * meanVec Z i) ^ 2 = _; ring
    simp only [this]
    rw [← Finset.mul_sum, ← hasq]
    field_simp
  have hnorm : normalized (vecQuat (meanVec Z)) = vecQuat u := by
    unfold normalized
    rw [← ha]
    apply QuaternionAlgebra.ext
    · show a⁻¹ * 0 = 0
      ring
    · rfl
    · rfl
    · rfl
  have hc : c = (sqrtQ (-vecQuat zHat * vecQuat u))⁻¹ := by
    rw [← hnorm]
    exact (Except.ok.inj h).symm
  obtain ⟨c1, c2⟩ := correction_rotor u hu1
  rw [← hc] at c1 c2
  refine ⟨c1, a * Z.length, mul_pos hapos hlen, ?_⟩
  have hzip : List.zipWith inFrame ((slice frame i1 i2).map (· * c)) V = Z.map (rotateVec (star c)) := by
    rw [List.zipWith_map_left, hZ, List.map_zipWith]
    congr 1
    funext F v
    rw [inFrame_eq, inFrame_eq, star_mul, Props.AbdTransform.rotateVec_mul]
  have htot : total Z = (a * Z.length) • u := by
    rw [hu, hm]
    funext i
    show _ = a * Z.length * (a⁻¹ * ((Z.length : ℝ)⁻¹ * total Z i))
    field_simp
  rw [hzip, total_rotate, htot, Verif.Lemmas.Bms.rotateVec_smul, ← c2, ← Props.AbdTransform.rotateVec_mul, Verif.Rotation.unit_left c1, Props.AbdTransform.rotateVec_one]

/-- C76: without a region the frames are the integrated ones. -/
theorem corotating_plain (ext : Frames.Ext) (w : Wave) (R0 : Quaternion ℝ) (hR0 : UnitRotor R0) (hi : Integrates ext) (om : List Vec) (ho : ext.omega w = .ok om) :
    corotatingFrame ext w R0 none = .ok (ext.integrate w.t om R0, om) := by
  have : corotatingFrame ext w R0 none = .ok ((((ext.integrate w.t om R0).map (· * 1)).map fun F => (absQ F)⁻¹ • F), om) := by
    show (ext.omega w >>= _) = _
    rw [ho]
    rfl
  rw [this]
  congr 2
  rw [List.map_map]
  refine (List.map_congr_left fun F hF => ?_).trans (List.map_id _)
  show (absQ (F * 1))⁻¹ • (F * 1) = F
  rw [mul_one, smul_unit ((hi w.t om R0 hR0).2 F hF)]

/-- C76: with a region. -/
theorem corotating_region (ext : Frames.Ext) (w : Wave) (R0 : Quaternion ℝ) (hR0 : UnitRotor R0) (hi : Integrates ext) (om : List Vec) (ho : ext.omega w = .ok om) (a b : ℝ) (t0 : ℝ) (ht0 : w.t[0]? = some t0)
    (i1 i2 : Nat) (h1 : argmin w.t (t0 + a * (ext.maxNormTime w - t0)) = .ok i1) (h2 : argmin w.t (t0 + b * (ext.maxNormTime w - t0)) = .ok i2) (c : Quaternion ℝ) (hc : UnitRotor c)
    (hcorr : correction ext w (ext.integrate w.t om R0) om i1 i2 = .ok c) :
    corotatingFrame ext w R0 (some (a, b)) = .ok ((ext.integrate w.t om R0).map (· * c), om) := by
  have hg : pyGet w.t 0 = .ok t0 := by
    obtain ⟨x, hx, hx'⟩ := pyGet_ok w.t 0 (List.getElem?_eq_some_iff.1 ht0).1
    rw [ht0] at hx'
    rw [Option.some.inj hx']
    exact hx
  have : corotatingFrame ext w R0 (some (a, b)) = .ok ((((ext.integrate w.t om R0).map (· * c)).map fun F => (absQ F)⁻¹ • F), om) := by
    unfold Frames.corotatingFrame
    simp only [ho, ok_bind, hg, h1, h2, hcorr]
    rfl
  rw [this]
  congr 2
  refine (List.map_congr_left fun F hF => ?_).trans (List.map_id _)
  obtain ⟨G, hG, rfl⟩ := List.mem_map.1 hF
  exact smul_unit (Lemmas.Align.unit_mul ((hi w.t om R0 hR0).2 G hG) hc)

/-- C76: the region cannot be used for a waveform with 10 times or fewer, whatever the region: the rough direction is looked up at an index of at least 10. -/
theorem region_fails_short (ext : Frames.Ext) (w : Wave) (R0 : Quaternion ℝ) (om : List Vec) (ho : ext.omega w = .ok om) (hl : om.length = w.t.length) (hn : 0 < w.t.length) (hshort : w.t.length ≤ 10)
    (a b : ℝ) : corotatingFrame ext w R0 (some (a, b)) = .error .indexError := by
  obtain ⟨t0, hg, -⟩ := pyGet_ok w.t 0 hn
  obtain ⟨i1, e1, -, -⟩ := argmin_spec w.t (t0 + a * (ext.maxNormTime w - t0)) hn
  obtain ⟨i2, e2, -, -⟩ := argmin_spec w.t (t0 + b * (ext.maxNormTime w - t0)) hn
  have hp : pyGet om (max 0 ((i1 : Int) - 10) + 10) = .error .indexError := by
    unfold pyGet
    rw [if_neg (by omega), if_neg (by omega), List.getElem?_eq_none (by omega)]
  have hc : correction ext w (ext.integrate w.t om R0) om i1 i2 = .error .indexError := by
    unfold correction
    simp only [hp]
    rfl
  have hg' : pyGet w.t 0 = .ok t0 := hg
  unfold Frames.corotatingFrame
  simp only [ho, ok_bind, hg', e1, e2, hc]
  rfl

/-! ## Truncation of the logarithm of the frame -/

theorem powerOf2_pos (tol : ℝ) : 0 < powerOf2 tol := by unfold powerOf2; positivity

/-- C76: the spacing `1/power_of_2` of the truncated values is at most `2 * tolerance`, and more than `tolerance`. -/
theorem spacing (tol : ℝ) (ht : 0 < tol) : (powerOf2 tol)⁻¹ ≤ 2 * tol ∧ tol < (powerOf2 tol)⁻¹ := by
  have h2 : (0 : ℝ) < 2 * tol := by linarith
  have e : (powerOf2 tol)⁻¹ = (2 : ℝ) ^ ((⌊Real.logb 2 (2 * tol)⌋ : Int) : ℝ) := by
    unfold powerOf2
    rw [zpow_neg, inv_inv, Real.rpow_intCast]
  have h3 : (2 : ℝ) ^ Real.logb 2 (2 * tol) = 2 * tol := Real.rpow_logb (by norm_num) (by norm_num) h2
  rw [e]
  constructor
  · conv_rhs => rw [← h3]
    exact Real.rpow_le_rpow_of_exponent_le (by norm_num) (Int.floor_le _)
  · have h4 : Real.logb 2 (2 * tol) < (⌊Real.logb 2 (2 * tol)⌋ : ℝ) + 1 := Int.lt_floor_add_one _
    have h5 := Real.rpow_lt_rpow_of_exponent_lt (x := 2) (by norm_num) h4
    rw [h3, Real.rpow_add (by norm_num), Real.rpow_one] at h5
    linarith

/-- C76: the truncated logarithm differs by at most the tolerance, and is a multiple of a power of 2 that is at least `1/(2 tolerance)`. -/
theorem truncLog_close (ext : Frames.Ext) (hr : ∀ x, |(ext.rint x : ℝ) - x| ≤ 1 / 2) (tol : ℝ) (ht : 0 < tol) (v : Vec) (i : Fin 3) :
    |truncLog ext tol v i - v i| ≤ tol ∧ ∃ k : Int, truncLog ext tol v i = k * (powerOf2 tol)⁻¹ := by
  have hp := powerOf2_pos tol
  refine ⟨?_, ext.rint (v i * powerOf2 tol), by unfold truncLog; rw [div_eq_mul_inv]⟩
  have e : truncLog ext tol v i - v i = ((ext.rint (v i * powerOf2 tol) : ℝ) - v i * powerOf2 tol) * (powerOf2 tol)⁻¹ := by
    unfold truncLog
    field_simp
  rw [e, abs_mul, abs_of_pos (inv_pos.2 hp)]
  have h1 := (spacing tol ht).1
  have h2 := hr (v i * powerOf2 tol)
  have h3 := inv_pos.2 hp
  nlinarith

theorem expQ_unit (v : Vec) : UnitRotor (expQ v) := by
  unfold expQ
  by_cases h : √(v 0 ^ 2 + v 1 ^ 2 + v 2 ^ 2) = 0
  · simp only [h, if_true]; exact Verif.Rotation.unit_one
  · simp only
    rw [if_neg h]
    have hs : √(v 0 ^ 2 + v 1 ^ 2 + v 2 ^ 2) ^ 2 = v 0 ^ 2 + v 1 ^ 2 + v 2 ^ 2 := Real.sq_sqrt (by positivity)
    set n := √(v 0 ^ 2 + v 1 ^ 2 + v 2 ^ 2)
    refine (unit_iff _).2 ?_
    show Real.cos n ^ 2 + (Real.sin n / n * v 0) ^ 2 + (Real.sin n / n * v 1) ^ 2 + (Real.sin n / n * v 2) ^ 2 = 1
    have : (Real.sin n / n * v 0) ^ 2 + (Real.sin n / n * v 1) ^ 2 + (Real.sin n / n * v 2) ^ 2 = Real.sin n ^ 2 := by
      have e : (Real.sin n / n * v 0) ^ 2 + (Real.sin n / n * v 1) ^ 2 + (Real.sin n / n * v 2) ^ 2 = (Real.sin n / n) ^ 2 * (v 0 ^ 2 + v 1 ^ 2 + v 2 ^ 2) := by ring
      rw [e, ← hs]
      field_simp
    have h1 := Real.sin_sq_add_cos_sq n
    linarith

/-- The logarithm of a unit rotor: `exp(log(q)) = q`. -/
theorem exp_log {q : Quaternion ℝ} (hq : UnitRotor q) : expQ (logQ q) = q := by
  have hq' := (unit_iff q).1 hq
  set n := √(q.imI ^ 2 + q.imJ ^ 2 + q.imK ^ 2) with hn
  have hns : n ^ 2 = q.imI ^ 2 + q.imJ ^ 2 + q.imK ^ 2 := Real.sq_sqrt (by positivity)
  have hn0 : 0 ≤ n := Real.sqrt_nonneg _
  by_cases h0 : n = 0
  · have hI : q.imI = 0 := by nlinarith [sq_nonneg q.imI, sq_nonneg q.imJ, sq_nonneg q.imK]
    have hJ : q.imJ = 0 := by nlinarith [sq_nonneg q.imI, sq_nonneg q.imJ, sq_nonneg q.imK]
    have hK : q.imK = 0 := by nlinarith [sq_nonneg q.imI, sq_nonneg q.imJ, sq_nonneg q.imK]
    have hre : q.re ^ 2 = 1 := by rw [hI, hJ, hK] at hq'; linarith
    by_cases hneg : q.re < 0
    · have hl : logQ q = ![Real.pi, 0, 0] := by
        unfold logQ
        simp only
        rw [if_pos (by rw [← hn]; exact h0), if_pos hneg]
      have hs : √((![Real.pi, 0, 0] : Vec) 0 ^ 2 + (![Real.pi, 0, 0] : Vec) 1 ^ 2 + (![Real.pi, 0, 0] : Vec) 2 ^ 2) = Real.pi := by
        show √(Real.pi ^ 2 + 0 ^ 2 + 0 ^ 2) = Real.pi
        rw [show Real.pi ^ 2 + 0 ^ 2 + 0 ^ 2 = Real.pi ^ 2 by ring]
        exact Real.sqrt_sq Real.pi_pos.le
      rw [hl]
      unfold expQ
      simp only [hs]
      rw [if_neg Real.pi_ne_zero, Real.sin_pi, Real.cos_pi]
      have hre1 : q.re = -1 := by nlinarith
      apply QuaternionAlgebra.ext
      · exact hre1.symm
      · show 0 / Real.pi * _ = q.imI
        rw [hI]; ring
      · show 0 / Real.pi * _ = q.imJ
        rw [hJ]; ring
      · show 0 / Real.pi * _ = q.imK
        rw [hK]; ring
    · have hl : logQ q = 0 := by
        unfold logQ
        simp only
        rw [if_pos (by rw [← hn]; exact h0), if_neg hneg]
      have hre1 : q.re = 1 := by nlinarith
      rw [hl]
      unfold expQ
      simp only
      rw [if_pos (by simp)]
      apply QuaternionAlgebra.ext
      · show (1 : Quaternion ℝ).re = q.re
        rw [Quaternion.re_one, hre1]
      · show (1 : Quaternion ℝ).imI = q.imI
        rw [Quaternion.imI_one, hI]
      · show (1 : Quaternion ℝ).imJ = q.imJ
        rw [Quaternion.imJ_one, hJ]
      · show (1 : Quaternion ℝ).imK = q.imK
        rw [Quaternion.imK_one, hK]
  · have hpos : 0 < n := lt_of_le_of_ne hn0 (Ne.symm h0)
    set z : ℂ := ⟨q.re, n⟩ with hz
    have hz1 : ‖z‖ = 1 := by
      rw [Complex.norm_def, Complex.normSq_apply]
      show √(q.re * q.re + n * n) = 1
      rw [show q.re * q.re + n * n = 1 by nlinarith, Real.sqrt_one]
    have hzne : z ≠ 0 := by intro h; rw [h] at hz1; simp at hz1
    have hcos : Real.cos z.arg = q.re := by rw [Complex.cos_arg hzne, hz1]; simp [hz]
    have hsin : Real.sin z.arg = n := by rw [Complex.sin_arg, hz1]; simp [hz]
    have harg : 0 < z.arg := by
      have h1 : 0 ≤ z.arg := Complex.arg_nonneg_iff.2 hn0
      rcases h1.lt_or_eq with h | h
      · exact h
      · rw [← h, Real.sin_zero] at hsin; exact absurd hsin.symm h0
    have hl : logQ q = (z.arg / n) • vec q := by
      unfold logQ
      simp only
      rw [if_neg (by rw [← hn]; exact h0)]
    have hs : √(((z.arg / n) • vec q) 0 ^ 2 + ((z.arg / n) • vec q) 1 ^ 2 + ((z.arg / n) • vec q) 2 ^ 2) = z.arg := by
      show √((z.arg / n * q.imI) ^ 2 + (z.arg / n * q.imJ) ^ 2 + (z.arg / n * q.imK) ^ 2) = z.arg
      rw [show (z.arg / n * q.imI) ^ 2 + (z.arg / n * q.imJ) ^ 2 + (z.arg / n * q.imK) ^ 2 = (z.arg / n) ^ 2 * n ^ 2 by rw [hns]; ring, ← mul_pow, div_mul_cancel₀ _ h0]
      exact Real.sqrt_sq harg.le
    rw [hl]
    unfold expQ
    simp only [hs]
    rw [if_neg harg.ne', hcos, hsin]
    have e : ∀ x : ℝ, n / z.arg * (z.arg / n * x) = x := by
      intro x
      field_simp
    apply QuaternionAlgebra.ext
    · rfl
    · exact e _
    · exact e _
    · exact e _

/-- C76: `to_corotating_frame` rotates row `i` by the rotor `F i` of the corotating frame, or, if `truncate_log_frame` is set, by the exponential of the logarithm that is returned, which differs from the
logarithm of `F i` by at most the tolerance in each component; the frame is multiplied by the same rotor.  The angular velocity is returned only if requested. -/
theorem corotating (ext : Frames.Ext) (w : Wave) (R0 : Quaternion ℝ) (tol : ℝ) (ht : 0 < tol) (region : Option (ℝ × ℝ)) (ro trunc : Bool) (D tmp : Row ℂ) (hell : 0 ≤ w.ellMin) (hn : 2 ≤ w.t.length)
    (hd : w.data.length = w.t.length) (hf : w.frame.length = 0 ∨ w.frame.length = w.t.length) (hr : ∀ x, |(ext.rint x : ℝ) - x| ≤ 1 / 2)
    (F : List (Quaternion ℝ)) (om : List Vec) (hF : corotatingFrame ext w R0 region = .ok (F, om)) (hFl : F.length = w.t.length) (hFu : ∀ q ∈ F, UnitRotor q) :
    ∃ res l, toCorotating ext w R0 tol region ro trunc D tmp = .ok res ∧ res.frameType = 4 ∧ res.omega = (if ro then some om else none) ∧ res.wave.frame = .vec l ∧ l.length = w.t.length ∧
      ∃ used : List (Quaternion ℝ), used.length = w.t.length ∧ (∀ q ∈ used, UnitRotor q) ∧ (trunc = false → used = F ∧ res.logFrame = none) ∧
        (trunc = true → ∃ logs, res.logFrame = some logs ∧ used = logs.map expQ ∧ logs.length = F.length ∧
          ∀ (i : Nat) q v, F[i]? = some q → logs[i]? = some v → ∃ x, expQ x = q ∧ ∀ j, |v j - x j| ≤ tol ∧ ∃ k : Int, v j = k * (powerOf2 tol)⁻¹) ∧
        ∀ (i : Nat) d q, w.data[i]? = some d → used[i]? = some q → l[i]? = some (frameOf w.frame i * q) ∧ ∃ d', res.wave.data[i]? = some d' ∧ RowRotated w.ellMin w.ellMax q d d' := by
  set logs := F.map fun q => truncLog ext tol (logQ q) with hlogs
  set used := if trunc then logs.map expQ else F with hused
  have hul : used.length = w.t.length := by
    rw [hused]
    split
    · rw [List.length_map, hlogs, List.length_map, hFl]
    · exact hFl
  have huu : ∀ q ∈ used, UnitRotor q := by
    intro q hq
    rw [hused] at hq
    split at hq
    · obtain ⟨v, -, rfl⟩ := List.mem_map.1 hq
      exact expQ_unit v
    · exact hFu q hq
  obtain ⟨W, l, w1, w2, w3, w4, w5, w6, w7⟩ := rotateWave_series w hell hn hd hf used hul D tmp
  refine ⟨⟨W, 4, if ro then some om else none, if trunc then some logs else none⟩, l, ?_, rfl, rfl, w2, w5, used, hul, huu, ?_, ?_, w7⟩
  · unfold toCorotating
    simp only [hF, ok_bind]
    rw [← hlogs, ← hused]
    simp only [w1]
    rfl
  · rintro rfl
    exact ⟨rfl, rfl⟩
  · rintro rfl
    refine ⟨logs, rfl, rfl, by rw [hlogs, List.length_map], fun i q v hq hv => ⟨logQ q, exp_log (hFu q (List.mem_of_getElem? hq)), fun j => ?_⟩⟩
    rw [hlogs, List.getElem?_map, hq] at hv
    rw [← Option.some.inj hv]
    exact truncLog_close ext hr tol ht (logQ q) j

/-! ## The hypotheses are met -/

/-- Functions as in the other packages: no turns about the z axis, frames that stay as they are, and an angular velocity along the z axis. -/
noncomputable def exFrames : Frames.Ext where
  align := exExt
  halfGamma _ _ i := i
  slowing R t _ := (R.take 1 ++ List.replicate (t.length - 1) 1)
  omega w := .ok (List.replicate w.t.length zHat)
  integrate t _ R0 := List.replicate t.length R0
  maxNormTime _ := 2
  rint x := round x

theorem exFrames_facts : Eigh exFrames.align 2 2 ∧ Slowing exFrames ∧ Integrates exFrames ∧ ∀ x, |(exFrames.rint x : ℝ) - x| ≤ 1 / 2 := by
  refine ⟨exExt_facts.1, fun R t i h => ?_, fun t om R0 h => ⟨List.length_replicate, fun F hF => ?_⟩, fun x => ?_⟩
  · rcases R with _ | ⟨F, R⟩
    · have ht : t = [] := List.length_eq_zero_iff.1 (by simpa using h.symm)
      rw [ht]
      exact ⟨rfl, rfl⟩
    · simp only [List.length_cons] at h
      refine ⟨?_, rfl⟩
      show ((F :: R).take 1 ++ List.replicate (t.length - 1) 1).length = _
      rw [List.length_append, List.length_take, List.length_replicate, List.length_cons]
      omega
  · rw [List.eq_of_mem_replicate hF]
    exact h
  · rw [abs_sub_comm]
    exact abs_sub_round x

/-- A coprecessing and a corotating frame for three times, with a frame given before. -/
example (D tmp : Row ℂ) : (∃ W, toCoprecessing exFrames exWave zHat none (some (1, 2)) D tmp = .ok (W, 2)) ∧ ∃ res, toCorotating exFrames exWave 1 (1 / 100) none true true D tmp = .ok res := by
  have hell : 0 ≤ exWave.ellMin := by show (0 : Int) ≤ 2; norm_num
  have hn : 2 ≤ exWave.t.length := by show 2 ≤ 3; norm_num
  obtain ⟨W, l, h, -⟩ := coprecessing exFrames exWave zHat none (some (1, 2)) D tmp hell hn rfl (Or.inr rfl) (fun k hk => by cases hk) exFrames_facts.1 exFrames_facts.2.1
  have hF := corotating_plain exFrames exWave 1 Verif.Rotation.unit_one exFrames_facts.2.2.1 _ rfl
  have hi := exFrames_facts.2.2.1 exWave.t (List.replicate exWave.t.length zHat) 1 Verif.Rotation.unit_one
  obtain ⟨res, l', h', -⟩ := corotating exFrames exWave 1 (1 / 100) (by norm_num) none true true D tmp hell hn rfl (Or.inr rfl) exFrames_facts.2.2.2 _ _ hF hi.1 hi.2
  exact ⟨⟨W, h⟩, res, h'⟩

/-- A correction with a mean that is not zero. -/
example (w : Wave) (hw : w = ⟨[0, 1], 2, 2, [exRow, exRow], [], 1⟩) :
    (∃ c, correction { exFrames with align := { exExt with eigh := fun _ => zHat } } w [1, 1] (List.replicate 11 zHat) 0 1 = .ok c) ∧
    total (List.zipWith inFrame (slice [1, 1] 0 1) (dominantVectors { exExt with eigh := fun _ => zHat } 2 2 (slice w.data 0 1) zHat 0)) ≠ 0 := by
  subst hw
  refine ⟨⟨_, rfl⟩, ?_⟩
  have hz : ∑ i, zHat i ^ 2 = 1 := by rw [Fin.sum_univ_three, z0, z1, z2]; norm_num
  obtain ⟨v, hv, hv'⟩ := dominantVectors_one { exExt with eigh := fun _ => zHat } 2 2 exRow hz
  show total (List.zipWith inFrame [1] (dominantVectors { exExt with eigh := fun _ => zHat } 2 2 [exRow] zHat 0)) ≠ 0
  rw [hv]
  have hr : inFrame 1 v = v := by rw [inFrame_eq, star_one, Props.AbdTransform.rotateVec_one]
  intro h
  have h2 := congrFun h 2
  have h3 : v 2 = 0 := by
    have : total (List.zipWith inFrame [1] [v]) 2 = v 2 := by
      show (inFrame 1 v 2) + 0 = v 2
      rw [hr, add_zero]
    rw [← this, h2]
    rfl
  rcases hv' with e | e
  · rw [e] at h3
    change (1 : ℝ) = 0 at h3
    norm_num at h3
  · rw [e] at h3
    change -(1 : ℝ) = 0 at h3
    norm_num at h3

end Verif.Props.Frames
