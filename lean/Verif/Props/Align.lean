import Verif.Lemmas.Align

/-!
# C75: the frame that `align_decomposition_frame_to_modes` chooses
-/

namespace Verif.Props.Align

open Verif Verif.Modes Verif.ModeCalc Verif.Align Verif.Spec.Align Verif.Spec.AngMom Verif.Spec.Rotation Verif.Props.AngMomCov Verif.Lemmas.Align ComplexConjugate
open Verif.AbdTransform (rotateVec vecQuat)

/-! ## At one instant -/

theorem dot_sum (v w : Vec) : dot v w = ∑ i, v i * w i := by rw [Fin.sum_univ_three]; rfl

theorem dot_neg (v w : Vec) : dot v (-w) = -dot v w := by
  simp only [dot, Pi.neg_apply]; ring

theorem Top.neg {M : Fin 3 → Fin 3 → ℝ} {x : Vec} (h : Spec.Align.Top M x) : Spec.Align.Top M (-x) := by
  refine ⟨?_, fun v hv => (h.2 v hv).trans (le_of_eq ?_)⟩
  · rw [← h.1]; simp
  · refine Finset.sum_congr rfl fun i _ => Finset.sum_congr rfl fun j _ => ?_
    show _ = -x i * _ * -x j
    ring

theorem vec_rotate {F R : Quaternion ℝ} (hF : UnitRotor F) (hR : UnitRotor R) (v : Vec) : vec (F * R * vecQuat v * R⁻¹ * F⁻¹) = rotateVec (F * R) v := by
  have : F * R * vecQuat v * R⁻¹ * F⁻¹ = F * R * vecQuat v * star (F * R) := by
    rw [Verif.Rotation.unit_inv hR, Verif.Rotation.unit_inv hF, star_mul]
    noncomm_ring
  rw [this]
  rfl

/-- The row that `rotate_decomposition_basis` makes of one row. -/
theorem rotated_row (a b : Int) (ha : 0 ≤ a) (d : Row ℂ) (F R : Quaternion ℝ) (D tmp : Row ℂ) :
    (Rotation.rotate ⟨a, b, [d], .vec [F]⟩ (.quat R) D tmp).1.ellMin = a ∧
    RowRotated a b R d ((Rotation.rotate ⟨a, b, [d], .vec [F]⟩ (.quat R) D tmp).1.data.getD 0 fun _ => 0) := by
  obtain ⟨d', h1, h2⟩ := rotate_rows ⟨a, b, [d], .vec [F]⟩ ha R D tmp 0 d rfl
  refine ⟨rfl, ?_⟩
  rw [List.getD_eq_getElem?_getD, h1]
  exact h2

theorem phase_polar (z : ℂ) (x : ℝ) : z * Complex.exp (x * Complex.I) = ‖z‖ * Complex.exp ((phase z + x : ℝ) * Complex.I) := by
  unfold phase
  conv_lhs => rw [← Complex.norm_mul_exp_arg_mul_I z]
  rw [mul_assoc, ← Complex.exp_add]
  congr 2
  push_cast
  ring

theorem norm_phase (z : ℂ) (x : ℝ) : ‖z * Complex.exp (x * Complex.I)‖ = ‖z‖ := by
  rw [norm_mul, Complex.norm_exp_ofReal_mul_I, mul_one]

/-- The modes of degree 2 after a tilt by `RV` (row `r`) and a rotation about the z axis, by the angle that is chosen or a half turn more. -/
theorem phases {a b : Int} (h2 : a ≤ 2) (hb : 2 ≤ b) {RV : Quaternion ℝ} {d r d' : Row ℂ} (hr : RowRotated a b RV d r) (k : Int) (x : ℝ)
    (hx : x = -(phase (fn a r 2 2) - phase (fn a r 2 (-2))) / 8 + k * (Real.pi / 2)) (hd : RowRotated a b (RV * expZ x) d d') :
    fn a d' 2 2 = ‖fn a d' 2 2‖ * Complex.exp (((phase (fn a r 2 2) + phase (fn a r 2 (-2))) / 2 : ℝ) * Complex.I) ∧
    fn a d' 2 (-2) = ‖fn a d' 2 (-2)‖ * Complex.exp (((phase (fn a r 2 2) + phase (fn a r 2 (-2))) / 2 : ℝ) * Complex.I) ∧
    ‖fn a d' 2 2‖ = ‖fn a r 2 2‖ ∧ ‖fn a d' 2 (-2)‖ = ‖fn a r 2 (-2)‖ := by
  have key : ∀ m : Int, -2 ≤ m ∧ m ≤ 2 → fn a d' 2 m = fn a r 2 m * Complex.exp ((2 * m * x : ℝ) * Complex.I) := by
    intro m hm
    show d' (lmIndex 2 m a) = _
    rw [hd 2 m h2 hb hm.1 hm.2, ← Verif.Rotation.rot_rot 2 RV _ _ m hm, rot_expZ x 2 _ m hm]
    congr 1
    · exact (hr 2 m h2 hb hm.1 hm.2).symm
    · push_cast; ring_nf
  have per : ∀ (y : ℝ) (n : Int), Complex.exp ((y + n * (2 * Real.pi) : ℝ) * Complex.I) = Complex.exp (y * Complex.I) := by
    intro y n
    have := Complex.exp_int_mul_two_pi_mul_I n
    rw [show ((y + n * (2 * Real.pi) : ℝ) : ℂ) * Complex.I = y * Complex.I + n * (2 * Real.pi * Complex.I) by push_cast; ring, Complex.exp_add, this, mul_one]
  have e1 := key 2 (by norm_num)
  have e2 := key (-2) (by norm_num)
  refine ⟨?_, ?_, by rw [e1, norm_phase], by rw [e2, norm_phase]⟩
  · have hn : ‖fn a d' 2 2‖ = ‖fn a r 2 2‖ := by rw [e1, norm_phase]
    rw [hn, e1, phase_polar, ← per ((phase (fn a r 2 2) + phase (fn a r 2 (-2))) / 2) k]
    congr 3
    rw [hx]
    push_cast
    ring
  · have hn : ‖fn a d' 2 (-2)‖ = ‖fn a r 2 (-2)‖ := by rw [e2, norm_phase]
    rw [hn, e2, phase_polar, ← per ((phase (fn a r 2 2) + phase (fn a r 2 (-2))) / 2) (-k)]
    congr 3
    rw [hx]
    push_cast
    ring

theorem expZ_add (x y : ℝ) : expZ x * expZ y = expZ (x + y) := by
  apply QuaternionAlgebra.ext
  · show (expZ x * expZ y).re = Real.cos (x + y)
    rw [Quaternion.re_mul, Real.cos_add]
    show Real.cos x * Real.cos y - 0 * 0 - 0 * 0 - Real.sin x * Real.sin y = _
    ring
  · show (expZ x * expZ y).imI = 0
    rw [Quaternion.imI_mul]
    show Real.cos x * 0 + 0 * Real.cos y + 0 * Real.sin y - Real.sin x * 0 = _
    ring
  · show (expZ x * expZ y).imJ = 0
    rw [Quaternion.imJ_mul]
    show Real.cos x * 0 - 0 * Real.sin y + 0 * Real.cos y + Real.sin x * 0 = _
    ring
  · show (expZ x * expZ y).imK = Real.sin (x + y)
    rw [Quaternion.imK_mul, Real.sin_add]
    show Real.cos x * Real.sin y + 0 * 0 - 0 * 0 + Real.sin x * Real.cos y = _
    ring

/-- C75: what the rotor `R` that is chosen at an instant does.  `d` are the modes, `F` the frame, `x` a dominant vector, and `V` the one of `x` and `-x` on the side of `ω`.
The new z axis is `V`; the new x axis is on the side of `n`; and the two modes `(2, ±2)` have as their phase the mean of the phases that they have after the tilt. -/
theorem alignRotor_spec {a b c : Int} (ha : 0 ≤ a) (h2 : a ≤ 2) (hb : 2 ≤ b) (hc : c ≤ b) (d : Row ℂ) (F : Quaternion ℝ) (hF : UnitRotor F) (ω : Quaternion ℝ) (x : Vec)
    (hx : Spec.Align.Top (LLMatrix d (LMRange a c)) x) (nHat : Vec) (D tmp : Row ℂ) :
    let R := alignRotor a b d F ω (vecQuat x) nHat D tmp
    ∃ V : Vec, (V = x ∨ V = -x) ∧ 0 ≤ dot (vec ω) V ∧ UnitRotor R ∧ rotateVec R zHat = V ∧ 0 ≤ dot nHat (rotateVec (F * R) xHat) ∧
      ∀ d', RowRotated a b R d d' → ZDominant a c (fn a d') ∧
        ∃ r, RowRotated a b (rotorTo (vecQuat V)) d r ∧
          fn a d' 2 2 = ‖fn a d' 2 2‖ * Complex.exp (((phase (fn a r 2 2) + phase (fn a r 2 (-2))) / 2 : ℝ) * Complex.I) ∧
          fn a d' 2 (-2) = ‖fn a d' 2 (-2)‖ * Complex.exp (((phase (fn a r 2 2) + phase (fn a r 2 (-2))) / 2 : ℝ) * Complex.I) ∧
          ‖fn a d' 2 2‖ = ‖fn a r 2 2‖ ∧ ‖fn a d' 2 (-2)‖ = ‖fn a r 2 (-2)‖ := by
  intro R
  obtain ⟨V, hV, hVx, hVt, hdot⟩ : ∃ V : Vec, (if dot (vec ω) (vec (vecQuat x)) < 0 then -vecQuat x else vecQuat x) = vecQuat V ∧ (V = x ∨ V = -x) ∧
      Spec.Align.Top (LLMatrix d (LMRange a c)) V ∧ 0 ≤ dot (vec ω) V := by
    have e : vec (vecQuat x) = x := by funext i; fin_cases i <;> rfl
    rw [e]
    by_cases h : dot (vec ω) x < 0
    · refine ⟨-x, ?_, Or.inr rfl, Top.neg hx, by rw [dot_neg]; linarith⟩
      rw [if_pos h]
      apply QuaternionAlgebra.ext
      · show (-vecQuat x).re = 0
        rw [Quaternion.re_neg]; show -(0 : ℝ) = 0; ring
      · rfl
      · rfl
      · rfl
    · exact ⟨x, if_neg h, Or.inl rfl, hx, not_lt.1 h⟩
  obtain ⟨hu, hz⟩ := rotorTo_spec V hVt.1
  obtain ⟨hmin, hr⟩ := rotated_row a b ha d F (rotorTo (vecQuat V)) D tmp
  set r := (Rotation.rotate ⟨a, b, [d], .vec [F]⟩ (.quat (rotorTo (vecQuat V))) D tmp).1.data.getD 0 fun _ => 0 with hrdef
  set x0 := -(phase (fn a r 2 2) - phase (fn a r 2 (-2))) / 8 with hx0
  have hR : R = if dot nHat (vec (F * (rotorTo (vecQuat V) * expZ x0) * vecQuat xHat * (rotorTo (vecQuat V) * expZ x0)⁻¹ * F⁻¹)) < 0 then rotorTo (vecQuat V) * expZ x0 * expZ (Real.pi / 2)
      else rotorTo (vecQuat V) * expZ x0 := by
    show alignRotor a b d F ω (vecQuat x) nHat D tmp = _
    unfold alignRotor
    simp only [hV, hmin]
    rfl
  have hu0 : UnitRotor (rotorTo (vecQuat V) * expZ x0) := unit_mul hu (expZ_unit x0)
  rw [vec_rotate hF hu0] at hR
  obtain ⟨k, y, hy, hRy, hside⟩ : ∃ (k : Int) (y : ℝ), y = x0 + k * (Real.pi / 2) ∧ R = rotorTo (vecQuat V) * expZ y ∧ 0 ≤ dot nHat (rotateVec (F * R) xHat) := by
    by_cases h : dot nHat (rotateVec (F * (rotorTo (vecQuat V) * expZ x0)) xHat) < 0
    · rw [if_pos h] at hR
      refine ⟨1, x0 + Real.pi / 2, by push_cast; ring, by rw [hR, mul_assoc, expZ_add], ?_⟩
      rw [hR, ← mul_assoc F, Props.AbdTransform.rotateVec_mul, expZ_half_turn, Verif.Lemmas.Bms.rotateVec_neg, dot_neg]
      linarith
    · rw [if_neg h] at hR
      refine ⟨0, x0, by push_cast; ring, hR, ?_⟩
      rw [hR]
      exact not_lt.1 h
  have hRz : rotateVec R zHat = V := by rw [hRy, Props.AbdTransform.rotateVec_mul, expZ_zHat, hz]
  have hRu : UnitRotor R := by rw [hRy]; exact unit_mul hu (expZ_unit y)
  refine ⟨V, hVx, hdot, hRu, hRz, hside, fun d' hd' => ⟨dominant_rotated ha hRu (RowRotated.mono hc hd') hVt (Or.inl hRz), r, hr, ?_⟩⟩
  rw [hRy] at hd'
  exact phases h2 hb hr k y hy hd'

theorem samePhase_of {x y : ℂ} {θ : ℝ} (h : x = ‖x‖ * Complex.exp (θ * Complex.I) ∧ y = ‖y‖ * Complex.exp (θ * Complex.I)) : SamePhase x y := ⟨θ, h⟩

/-! ## The rows around the instant -/

theorem lastLe_spec (t : List ℝ) (x : ℝ) (i : Nat) (h : lastLe t x = .ok i) : (∃ y, t[i]? = some y ∧ y ≤ x) ∧ ∀ j y, i < j → t[j]? = some y → x < y := by
  unfold lastLe at h
  set l := (List.range t.length).filter fun i => decide (t.getD i 0 ≤ x) with hl
  rcases hx : l.getLast? with _ | k
  · rw [hx] at h; cases h
  · rw [hx] at h
    have hk : k = i := Except.ok.inj h
    subst hk
    have hm : k ∈ l := List.mem_of_getLast? hx
    have hsort : l.Pairwise (· < ·) := List.Pairwise.filter _ List.pairwise_lt_range
    rw [hl, List.mem_filter, decide_eq_true_eq, List.mem_range] at hm
    rw [List.getD_eq_getElem?_getD, List.getElem?_eq_getElem hm.1] at hm
    refine ⟨⟨_, List.getElem?_eq_getElem hm.1, hm.2⟩, fun j y hj hy => ?_⟩
    by_contra hc
    have hjm : j ∈ l := by
      rw [hl, List.mem_filter, decide_eq_true_eq, List.mem_range, List.getD_eq_getElem?_getD, hy]
      exact ⟨(List.getElem?_eq_some_iff.1 hy).1, not_lt.1 hc⟩
    obtain ⟨l', hl'⟩ : ∃ l', l = l' ++ [k] := by
      rw [List.getLast?_eq_some_iff] at hx
      exact hx
    rw [hl'] at hjm hsort
    rw [List.pairwise_append] at hsort
    rcases List.mem_append.1 hjm with h1 | h1
    · have := hsort.2.2 j h1 k (by simp)
      omega
    · simp at h1
      omega

theorem lastLe_ok (t : List ℝ) (x t0 : ℝ) (h0 : t.head? = some t0) (h : t0 ≤ x) : ∃ i, lastLe t x = .ok i := by
  unfold lastLe
  set l := (List.range t.length).filter fun i => decide (t.getD i 0 ≤ x) with hl
  rcases hx : l.getLast? with _ | k
  · exfalso
    rw [List.getLast?_eq_none_iff] at hx
    have : 0 ∈ l := by
      rw [List.head?_eq_getElem?] at h0
      rw [hl, List.mem_filter, decide_eq_true_eq, List.mem_range, List.getD_eq_getElem?_getD, h0]
      exact ⟨(List.getElem?_eq_some_iff.1 h0).1, h⟩
    rw [hx] at this
    simp at this
  · exact ⟨k, rfl⟩

/-- C75: the rows that are used (at most 11) exist, and the instant is between the first and the last of their times, so nothing is extrapolated.  Row `i`, where the angular velocity is taken, is one
of them. -/
theorem window_spec (t : List ℝ) (ht : t.Pairwise (· < ·)) (hn : 2 ≤ t.length) (t0 t1 x : ℝ) (h0 : t.head? = some t0) (h1 : t.getLast? = some t1) (hx0 : t0 ≤ x) (hx1 : x ≤ t1) :
    ∃ i i1 i2, window t x = .ok (i, i1, i2) ∧ i1 ≤ i ∧ i < i2 ∧ i2 ≤ t.length ∧ i1 + 2 ≤ i2 ∧ i2 ≤ i1 + 11 ∧
      (∃ y, t[i1]? = some y ∧ y ≤ x) ∧ ∃ y, t[i2 - 1]? = some y ∧ x ≤ y := by
  obtain ⟨k, hk⟩ := lastLe_ok t x t0 h0 hx0
  obtain ⟨⟨y, hy, hyx⟩, hlast⟩ := lastLe_spec t x k hk
  have hkn := (List.getElem?_eq_some_iff.1 hy).1
  have mono : ∀ a b (ha : a < t.length) (hb : b < t.length), a ≤ b → t[a] ≤ t[b] := by
    intro a b ha hb hab
    rcases Nat.lt_or_eq_of_le hab with h | h
    · exact (List.pairwise_iff_getElem.1 ht a b ha hb h).le
    · subst h; exact le_rfl
  have hyk : t[k] = y := (List.getElem?_eq_some_iff.1 hy).2
  have hlast1 : t[t.length - 1]? = some t1 := by rw [← h1, List.getLast?_eq_getElem?]
  have hw : ∀ i : Nat, i = (if k < t.length - 1 then k + 1 else k) → window t x = .ok (i, (if (i : Int) - 5 < 0 then 0 else i - 5), if (if (i : Int) - 5 < 0 then 0 else i - 5) + 11 > t.length then t.length else (if (i : Int) - 5 < 0 then 0 else i - 5) + 11) := by
    rintro i rfl
    unfold window
    rw [hk]
    rfl
  set i := if k < t.length - 1 then k + 1 else k with hi
  have hik : i < t.length ∧ i ≤ k + 1 ∧ k ≤ i := by rw [hi]; split <;> omega
  have hxi : ∀ (h : i < t.length), x ≤ t[i] := by
    intro h
    by_cases hc : k < t.length - 1
    · have : i = k + 1 := by rw [hi, if_pos hc]
      exact (hlast i _ (by omega) (List.getElem?_eq_getElem h)).le
    · have : i = t.length - 1 := by rw [hi, if_neg hc]; omega
      have e : t[i]? = some t1 := by rw [this, hlast1]
      rw [(List.getElem?_eq_some_iff.1 e).2]
      exact hx1
  refine ⟨i, _, _, hw i rfl, ?_⟩
  generalize hi1 : (if (i : Int) - 5 < 0 then 0 else i - 5) = i1
  have hi1' : i1 = i - 5 := by rw [← hi1]; split <;> omega
  generalize hi2 : (if i1 + 11 > t.length then t.length else i1 + 11) = i2
  have hi2' : i2 = min t.length (i1 + 11) := by rw [← hi2]; split <;> omega
  have hlow : i1 ≤ k := by
    by_cases hc : k < t.length - 1
    · have : i = k + 1 := by rw [hi, if_pos hc]
      omega
    · have : i = k := by rw [hi, if_neg hc]
      omega
  refine ⟨by omega, by omega, by omega, by omega, by omega, ⟨_, List.getElem?_eq_getElem (by omega : i1 < t.length), ?_⟩, ⟨_, List.getElem?_eq_getElem (by omega : i2 - 1 < t.length), ?_⟩⟩
  · exact (mono i1 k (by omega) hkn hlow).trans (by rw [hyk]; exact hyx)
  · exact (hxi hik.1).trans (mono i (i2 - 1) hik.1 (by omega) (by omega))

/-! ## Interpolation and constant rotations -/

theorem rot_sum {ι : Type} (ell : Int) (R : Quaternion ℝ) (l : List ι) (g : ι → ℂ) (f : ι → Int → ℂ) (m : Int) :
    rot ell R (fun n => (l.map fun i => g i * f i n).sum) m = (l.map fun i => g i * rot ell R (f i) m).sum := by
  induction l with
  | nil => simp [rot]
  | cons a l ih =>
    simp only [List.map_cons, List.sum_cons]
    rw [← ih]
    unfold rot
    rw [Finset.mul_sum, ← Finset.sum_add_distrib]
    refine Finset.sum_congr rfl fun n _ => ?_
    ring

/-- C75: interpolation commutes with a rotation by a constant. -/
theorem combine_rotated {a b : Int} {R : Quaternion ℝ} (wts : Nat → ℝ) (rows rows' : List (Row ℂ)) (hl : rows'.length = rows.length)
    (h : ∀ (k : Nat) d, rows[k]? = some d → ∃ d', rows'[k]? = some d' ∧ RowRotated a b R d d') : RowRotated a b R (combine wts rows) (combine wts rows') := by
  intro ell m h1 h2 h3 h4
  unfold combine
  rw [rot_sum ell R (List.range rows.length) (fun i => (wts i : ℂ)) (fun i n => (rows.getD i fun _ => 0) (lmIndex ell n a)) m, hl]
  congr 1
  refine List.map_congr_left fun i hi => ?_
  have hi' := List.mem_range.1 hi
  obtain ⟨d', e1, e2⟩ := h i _ (List.getElem?_eq_getElem hi')
  rw [List.getD_eq_getElem?_getD, e1, List.getD_eq_getElem?_getD, List.getElem?_eq_getElem hi']
  show _ * d' _ = _
  rw [e2 ell m h1 h2 h3 h4]
  rfl

theorem slice_getElem? {α : Type} (l : List α) (i1 i2 k : Nat) : (slice l i1 i2)[k]? = if i1 + k < i2 then l[i1 + k]? else none := by
  unfold slice
  rw [List.getElem?_drop, List.getElem?_take]

theorem slice_length {α : Type} (l : List α) (i1 i2 : Nat) : (slice l i1 i2).length = min i2 l.length - i1 := by
  unfold slice
  rw [List.length_drop, List.length_take]

theorem slice_map {α β : Type} (f : α → β) (l : List α) (i1 i2 : Nat) : slice (l.map f) i1 i2 = (slice l i1 i2).map f := by
  unfold slice
  rw [← List.map_take, ← List.map_drop]

/-! ## The whole function -/

/-- The frames for which there is an alignment. -/
def Alignable (w : Wave) : Prop := w.frameType = 2 ∨ w.frameType = 3 ∨ w.frameType = 4

/-- C75: what must hold of the arguments. -/
structure Proper (w : Wave) (tFid : ℝ) (ellMax : Option Int) : Prop where
  frameType : Alignable w
  frame : w.frame.length = w.t.length
  inside : ∃ t0 t1, w.t.head? = some t0 ∧ w.t.getLast? = some t1 ∧ t0 ≤ tFid ∧ tFid ≤ t1
  degrees : w.ellMin ≤ 2 ∧ 2 ≤ w.ellMax
  ellMax : ∀ l, ellMax = some l → l ≤ w.ellMax

theorem get_inv (ext : Ext) (w : Wave) (tFid : ℝ) (nHat : Vec) (ellMax : Option Int) (D tmp : Row ℂ) (R : Quaternion ℝ) (h : getAlignment ext w tFid nHat ellMax D tmp = .ok R) :
    Proper w tFid ellMax ∧ ∃ i i1 i2 om o oh d F v, window w.t tFid = .ok (i, i1, i2) ∧ ext.omega w i1 i2 = .ok om ∧ pyGet om ((i : Int) - i1) = .ok o ∧
      omegaInFrame w i (normalized (vecQuat o)) = .ok oh ∧ instant ext w i1 i2 tFid = .ok (d, F) ∧ pyGet (dominantVectors ext w.ellMin (ellMax.getD w.ellMax) [d] zHat 0) 0 = .ok v ∧
      R = alignRotor w.ellMin w.ellMax d F oh (normalized (vecQuat v)) nHat D tmp := by
  unfold getAlignment at h
  by_cases c1 : w.frameType = coprecessingFrame ∨ w.frameType = coorbitalFrame ∨ w.frameType = corotatingFrame
  case neg => rw [if_pos c1] at h; cases h
  rw [if_neg (not_not.2 c1)] at h
  by_cases c2 : w.frame.length ≠ w.t.length
  · rw [if_pos c2] at h; cases h
  rw [if_neg c2] at h
  rcases e0 : w.t.head? with _ | t0
  · rw [e0] at h; cases h
  rcases e1 : w.t.getLast? with _ | t1
  · rw [e0, e1] at h; cases h
  rw [e0, e1] at h
  simp only at h
  by_cases c3 : tFid < t0 ∨ tFid > t1
  · rw [if_pos c3] at h; cases h
  rw [if_neg c3] at h
  rcases hw : window w.t tFid with e | ⟨i, i1, i2⟩
  · rw [hw] at h; cases h
  rw [hw] at h
  simp only [ok_bind] at h
  by_cases c4 : 2 < w.ellMin ∨ 2 > w.ellMax
  · rw [if_pos c4] at h; cases h
  rw [if_neg c4] at h
  rcases ho : ext.omega w i1 i2 with e | om
  · rw [ho] at h; cases h
  rw [ho] at h
  simp only [ok_bind] at h
  rcases hoo : pyGet om ((i : Int) - i1) with e | o
  · rw [hoo] at h; cases h
  rw [hoo] at h
  simp only [ok_bind] at h
  rcases hoh : omegaInFrame w i (normalized (vecQuat o)) with e | oh
  · rw [hoh] at h; cases h
  rw [hoh] at h
  simp only [ok_bind] at h
  rcases hi : instant ext w i1 i2 tFid with e | ⟨d, F⟩
  · rw [hi] at h; cases h
  rw [hi] at h
  simp only [ok_bind] at h
  by_cases c5 : ellMax.getD w.ellMax > w.ellMax
  · rw [if_pos c5] at h; cases h
  rw [if_neg c5] at h
  rcases hv : pyGet (dominantVectors ext w.ellMin (ellMax.getD w.ellMax) [d] zHat 0) 0 with e | v
  · rw [hv] at h; cases h
  rw [hv] at h
  simp only [ok_bind] at h
  rw [not_or, not_lt, gt_iff_lt, not_lt] at c3 c4
  refine ⟨⟨c1, not_not.1 c2, ⟨t0, t1, e0, e1, c3⟩, c4, ?_⟩, i, i1, i2, om, o, oh, d, F, v, rfl, ho, hoo, hoh, hi, hv, (Except.ok.inj h).symm⟩
  rintro l rfl
  exact not_lt.1 c5

theorem pyGet_ok {α : Type} (l : List α) (i : Nat) (h : i < l.length) : ∃ x, pyGet l i = .ok x ∧ l[i]? = some x := by
  refine ⟨l[i], ?_, List.getElem?_eq_getElem h⟩
  unfold pyGet
  rw [if_neg (by omega), if_neg (by omega), Int.toNat_natCast, List.getElem?_eq_getElem h]

theorem pyGet_nat {α : Type} {l : List α} {i : Nat} {x : α} (h : pyGet l i = .ok x) : l[i]? = some x := by
  unfold pyGet at h
  rw [if_neg (by omega), if_neg (by omega), Int.toNat_natCast] at h
  rcases e : l[i]? with _ | y
  · rw [e] at h; cases h
  · rw [e] at h; exact congrArg some (Except.ok.inj h)

theorem dominantVectors_one (ext : Ext) (a c : Int) (d : Row ℂ) (hx : ∑ i, ext.eigh (LLMatrix d (LMRange a c)) i ^ 2 = 1) :
    ∃ v, dominantVectors ext a c [d] zHat 0 = [v] ∧ (v = ext.eigh (LLMatrix d (LMRange a c)) ∨ v = -ext.eigh (LLMatrix d (LMRange a c))) := by
  refine ⟨_, rfl, ?_⟩
  have hU : Props.Dominant.Units 1 (fun i : Int => match [d][i.toNat]? with
    | some d => toV (ext.eigh (LLMatrix d (LMRange a c)))
    | none => ⟨0, 0, 0⟩) := by
    intro i h1 h2
    have : i = 0 := by omega
    subst this
    rw [Fin.sum_univ_three] at hx
    show _ * _ + _ * _ + _ * _ = (1 : ℝ)
    rw [← hx]
    show ext.eigh _ 0 * ext.eigh _ 0 + ext.eigh _ 1 * ext.eigh _ 1 + ext.eigh _ 2 * ext.eigh _ 2 = _
    ring
  rcases Props.Dominant.dominant_sign 1 0 (by decide) (by decide) _ hU (toV zHat) 0 (by decide) (by decide) with h | h
  · left
    refine (congrArg ofV h).trans ?_
    funext i; fin_cases i <;> rfl
  · right
    refine (congrArg ofV h).trans ?_
    funext i
    fin_cases i
    · exact mul_neg_one _
    · exact mul_neg_one _
    · exact mul_neg_one _

theorem normalized_unit (x : Vec) (hx : ∑ i, x i ^ 2 = 1) : normalized (vecQuat x) = vecQuat x := by
  have : Quaternion.normSq (vecQuat x) = 1 := by
    rw [Quaternion.normSq_def', vecQuat_re, vecQuat_I, vecQuat_J, vecQuat_K, ← hx, Fin.sum_univ_three]; ring
  unfold normalized absQ
  rw [this]
  simp

/-- What is assumed of `np.linalg.eigh`, for a matrix of the modes of degree `a` to `c`. -/
def Eigh (ext : Ext) (a c : Int) : Prop := ∀ d : Row ℂ, Spec.Align.Top (LLMatrix d (LMRange a c)) (ext.eigh (LLMatrix d (LMRange a c)))

/-- What is assumed of the interpolation of rotors: the results are unit rotors, and a constant factor on the right can be taken out. -/
structure Squad (ext : Ext) : Prop where
  unit : ∀ l ts x, l.length = ts.length → 2 ≤ l.length → (∀ F ∈ l, UnitRotor F) → UnitRotor (ext.squad l ts x)
  mul : ∀ l ts x R, 2 ≤ l.length → UnitRotor R → ext.squad (l.map (· * R)) ts x = ext.squad l ts x * R

/-- C75: the alignment exists if, and only if, the arguments are proper. -/
theorem alignment_exists (ext : Ext) (w : Wave) (tFid : ℝ) (nHat : Vec) (ellMax : Option Int) (D tmp : Row ℂ) (ht : w.t.Pairwise (· < ·)) (hn : 2 ≤ w.t.length)
    (hom : ∀ i1 i2, i1 ≤ i2 → i2 ≤ w.t.length → ∃ om, ext.omega w i1 i2 = .ok om ∧ om.length = i2 - i1) :
    (∃ R, getAlignment ext w tFid nHat ellMax D tmp = .ok R) ↔ Proper w tFid ellMax := by
  constructor
  · rintro ⟨R, h⟩
    exact (get_inv ext w tFid nHat ellMax D tmp R h).1
  · rintro ⟨h1, h2, ⟨t0, t1, e0, e1, h3⟩, h4, h5⟩
    obtain ⟨i, i1, i2, hw, w1, w2, w3, w4, w5, -, -⟩ := window_spec w.t ht hn t0 t1 tFid e0 e1 h3.1 h3.2
    obtain ⟨om, ho, hol⟩ := hom i1 i2 (by omega) w3
    obtain ⟨o, hoo, -⟩ := pyGet_ok om (i - i1) (by omega)
    rw [show ((i - i1 : Nat) : Int) = (i : Int) - i1 by omega] at hoo
    obtain ⟨G, hG, -⟩ := pyGet_ok w.frame i (by omega)
    have hoh : omegaInFrame w i (normalized (vecQuat o)) = .ok (G⁻¹ * normalized (vecQuat o) * G) := by
      unfold omegaInFrame
      rw [if_pos (by omega), hG]
      rfl
    have hi : instant ext w i1 i2 tFid = .ok (combine (ext.weights (slice w.t i1 i2) tFid) (slice w.data i1 i2), ext.squad (slice w.frame i1 i2) (slice w.t i1 i2) tFid) := by
      unfold instant
      rw [if_neg]
      rw [slice_length]
      omega
    have c5 : ¬ ellMax.getD w.ellMax > w.ellMax := by
      rcases ellMax with _ | l
      · exact lt_irrefl _
      · exact not_lt.2 (h5 l rfl)
    have h1' : w.frameType = coprecessingFrame ∨ w.frameType = coorbitalFrame ∨ w.frameType = corotatingFrame := h1
    unfold getAlignment
    rw [if_neg (not_not.2 h1'), if_neg (not_not.2 h2), e0, e1]
    simp only
    rw [if_neg (by rw [not_or, not_lt, gt_iff_lt, not_lt]; exact h3), hw]
    simp only [ok_bind]
    rw [if_neg (by rw [not_or, not_lt, gt_iff_lt, not_lt]; exact h4), ho]
    simp only [ok_bind]
    rw [hoo]
    simp only [ok_bind]
    rw [hoh]
    simp only [ok_bind]
    rw [hi]
    simp only [ok_bind]
    rw [if_neg c5]
    exact ⟨_, rfl⟩

/-- C75: improper arguments are refused with a `ValueError`. -/
theorem alignment_refused (ext : Ext) (w : Wave) (tFid : ℝ) (nHat : Vec) (ellMax : Option Int) (D tmp : Row ℂ) (ht : w.t.Pairwise (· < ·)) (hn : 2 ≤ w.t.length)
    (hom : ∀ i1 i2, i1 ≤ i2 → i2 ≤ w.t.length → ∃ om, ext.omega w i1 i2 = .ok om ∧ om.length = i2 - i1) (h : ¬ Proper w tFid ellMax) :
    getAlignment ext w tFid nHat ellMax D tmp = .error .valueError := by
  unfold getAlignment
  by_cases c1 : w.frameType = coprecessingFrame ∨ w.frameType = coorbitalFrame ∨ w.frameType = corotatingFrame
  case neg => rw [if_pos c1]
  rw [if_neg (not_not.2 c1)]
  by_cases c2 : w.frame.length ≠ w.t.length
  · rw [if_pos c2]
  rw [if_neg c2]
  rcases e0 : w.t.head? with _ | t0
  · rw [List.head?_eq_none_iff] at e0; rw [e0] at hn; simp at hn
  rcases e1 : w.t.getLast? with _ | t1
  · rw [List.getLast?_eq_none_iff] at e1; rw [e1] at hn; simp at hn
  simp only
  by_cases c3 : tFid < t0 ∨ tFid > t1
  · rw [if_pos c3]
  rw [if_neg c3]
  have c3' := c3
  rw [not_or, not_lt, gt_iff_lt, not_lt] at c3'
  obtain ⟨i, i1, i2, hw, w1, w2, w3, w4, w5, -, -⟩ := window_spec w.t ht hn t0 t1 tFid e0 e1 c3'.1 c3'.2
  rw [hw]
  simp only [ok_bind]
  by_cases c4 : 2 < w.ellMin ∨ 2 > w.ellMax
  · rw [if_pos c4]
  rw [if_neg c4]
  rw [not_or, not_lt, gt_iff_lt, not_lt] at c4
  obtain ⟨om, ho, hol⟩ := hom i1 i2 (by omega) w3
  obtain ⟨o, hoo, -⟩ := pyGet_ok om (i - i1) (by omega)
  rw [show ((i - i1 : Nat) : Int) = (i : Int) - i1 by omega] at hoo
  obtain ⟨G, hG, -⟩ := pyGet_ok w.frame i (by omega)
  have hoh : omegaInFrame w i (normalized (vecQuat o)) = .ok (G⁻¹ * normalized (vecQuat o) * G) := by
    unfold omegaInFrame
    rw [if_pos (by omega), hG]
    rfl
  have hi : instant ext w i1 i2 tFid = .ok (combine (ext.weights (slice w.t i1 i2) tFid) (slice w.data i1 i2), ext.squad (slice w.frame i1 i2) (slice w.t i1 i2) tFid) := by
    unfold instant
    rw [if_neg]
    rw [slice_length]
    omega
  rw [ho]
  simp only [ok_bind]
  rw [hoo]
  simp only [ok_bind]
  rw [hoh]
  simp only [ok_bind]
  rw [hi]
  simp only [ok_bind]
  by_cases c5 : ellMax.getD w.ellMax > w.ellMax
  · rw [if_pos c5]
  · refine absurd ⟨c1, not_not.1 c2, ⟨t0, t1, e0, e1, c3'⟩, c4, ?_⟩ h
    rintro l rfl
    exact not_lt.1 c5

theorem dot_smul (c : ℝ) (v w : Vec) : dot (c • v) w = c * dot v w := by
  simp only [dot, Pi.smul_apply, smul_eq_mul]; ring

/-- Rotating both vectors. -/
theorem dot_rotate {F : Quaternion ℝ} (hF : UnitRotor F) (v w : Vec) : dot (rotateVec (star F) v) w = dot v (rotateVec F w) := by
  have hq : rotateVec F (rotateVec (star F) v) = v := by
    rw [← Props.AbdTransform.rotateVec_mul, Verif.Rotation.unit_right hF, Props.AbdTransform.rotateVec_one]
  have key : ∀ u x : Vec, dot (rotateVec F u) (rotateVec F x) = dot u x := by
    intro u x
    have h1 := Props.GridModes.rotateVec_length F hF (u + x)
    have h2 := Props.GridModes.rotateVec_length F hF u
    have h3 := Props.GridModes.rotateVec_length F hF x
    rw [Verif.Lemmas.Bms.rotateVec_add] at h1
    simp only [Fin.sum_univ_three, Pi.add_apply] at h1 h2 h3
    unfold dot
    linarith
  rw [← key, hq]

/-- C75: `align_decomposition_frame_to_modes` rotates all rows by one unit rotor `R` and multiplies all the frames by it.  At the fiducial time, the waveform that it leaves behind has its z axis along
a dominant direction of `LL` for the modes up to `ell_max`, on the side of the angular velocity; its x axis is on the side of `nHat`; and its modes `(2, ±2)` have the same phase. -/
theorem aligned_partial (ext : Ext) (w : Wave) (tFid : ℝ) (nHat : Vec) (ellMax : Option Int) (D tmp D' tmp' : Row ℂ) (W : Rotation.Wave) (e : Option PyErr)
    (hell : 0 ≤ w.ellMin) (hunit : ∀ F ∈ w.frame, UnitRotor F) (hn : 2 ≤ w.t.length) (heigh : Eigh ext w.ellMin (ellMax.getD w.ellMax)) (hsquad : Squad ext)
    (h : align ext w tFid nHat ellMax D tmp D' tmp' = .ok (W, e)) :
    ∃ R : Quaternion ℝ, UnitRotor R ∧ e = none ∧ W.ellMin = w.ellMin ∧ W.ellMax = w.ellMax ∧ W.frame = .vec (w.frame.map (· * R)) ∧ W.data.length = w.data.length ∧
      (∀ (k : Nat) d, w.data[k]? = some d → ∃ d', W.data[k]? = some d' ∧ RowRotated w.ellMin w.ellMax R d d') ∧
      ∃ i i1 i2 om o G d' F', window w.t tFid = .ok (i, i1, i2) ∧ ext.omega w i1 i2 = .ok om ∧ pyGet om ((i : Int) - i1) = .ok o ∧ (w.frame.map (· * R))[i]? = some G ∧
        instant ext ⟨w.t, w.ellMin, w.ellMax, W.data, w.frame.map (· * R), w.frameType⟩ i1 i2 tFid = .ok (d', F') ∧
        ZDominant w.ellMin (ellMax.getD w.ellMax) (fn w.ellMin d') ∧ SamePhase (fn w.ellMin d' 2 2) (fn w.ellMin d' 2 (-2)) ∧
        0 ≤ dot o (rotateVec G zHat) ∧ 0 ≤ dot nHat (rotateVec F' xHat) := by
  rcases hR : getAlignment ext w tFid nHat ellMax D tmp with err | R
  · have : align ext w tFid nHat ellMax D tmp D' tmp' = .error err := by
      show (getAlignment ext w tFid nHat ellMax D tmp >>= _) = _
      rw [hR]; rfl
    rw [this] at h; cases h
  have hal : align ext w tFid nHat ellMax D tmp D' tmp' = .ok (rotateWave w (.quat R) D' tmp') := by
    show (getAlignment ext w tFid nHat ellMax D tmp >>= _) = _
    rw [hR]; rfl
  rw [hal] at h
  obtain ⟨hp, i, i1, i2, om, o, oh, d, F, v, hw, ho, hoo, hoh, hi, hv, hRe⟩ := get_inv ext w tFid nHat ellMax D tmp R hR
  have hW : (rotateWave w (.quat R) D' tmp').1 = W := congrArg Prod.fst (Except.ok.inj h)
  have he : (rotateWave w (.quat R) D' tmp').2 = e := congrArg Prod.snd (Except.ok.inj h)
  have hrot := Props.Rotation.constant_rotation ⟨w.ellMin, w.ellMax, w.data, .vec w.frame⟩ hell R D' tmp'
  have hfr := Props.Rotation.constant_frame ⟨w.ellMin, w.ellMax, w.data, .vec w.frame⟩ w.frame rfl R D' tmp'
  have hne : w.frame ≠ [] := by
    intro hc
    have := hp.frame
    rw [hc] at this
    simp at this
    omega
  rw [if_neg hne] at hfr
  have hrows : ∀ (k : Nat) d, w.data[k]? = some d → ∃ d', W.data[k]? = some d' ∧ RowRotated w.ellMin w.ellMax R d d' := by
    intro k d hk
    rw [← hW]
    exact rotate_rows ⟨w.ellMin, w.ellMax, w.data, .vec w.frame⟩ hell R D' tmp' k d hk
  have hlen : W.data.length = w.data.length := by rw [← hW]; exact hrot.2.2.2.1
  -- the instant
  have hc2 : ¬ (slice w.t i1 i2).length < 2 := by
    intro hc
    unfold instant at hi
    rw [if_pos hc] at hi
    cases hi
  have hi' := hi
  unfold instant at hi'
  rw [if_neg hc2] at hi'
  obtain ⟨hd, hF⟩ := Prod.mk.inj (Except.ok.inj hi')
  have hsl : (slice w.frame i1 i2).length = (slice w.t i1 i2).length := by rw [slice_length, slice_length, hp.frame]
  have hFu : UnitRotor F := by
    rw [← hF]
    refine hsquad.unit _ _ _ hsl (by omega) fun Q hQ => hunit Q ?_
    exact List.mem_of_mem_take (List.mem_of_mem_drop hQ)
  -- the dominant direction
  have htop := heigh d
  obtain ⟨v', hv1, hv2⟩ := dominantVectors_one ext w.ellMin (ellMax.getD w.ellMax) d htop.1
  rw [hv1] at hv
  have hvv : v' = v := Except.ok.inj hv
  subst hvv
  have htv : Spec.Align.Top (LLMatrix d (LMRange w.ellMin (ellMax.getD w.ellMax))) v' := by
    rcases hv2 with h' | h'
    · rw [h']; exact htop
    · rw [h']; exact Top.neg htop
  have hcb : ellMax.getD w.ellMax ≤ w.ellMax := by
    rcases hl : ellMax with _ | l
    · exact le_rfl
    · exact hp.ellMax l hl
  rw [normalized_unit v' htv.1] at hRe
  obtain ⟨V, hVx, hdot, hRu, hRz, hside, hrow⟩ := alignRotor_spec hell hp.degrees.1 hp.degrees.2 hcb d F hFu oh v' htv nHat D tmp
  rw [← hRe] at hRu hRz hside hrow
  -- the angular velocity
  obtain ⟨Q, hQ, hoQ⟩ : ∃ Q, w.frame[i]? = some Q ∧ oh = Q⁻¹ * normalized (vecQuat o) * Q := by
    unfold omegaInFrame at hoh
    rw [if_pos (by rw [hp.frame]; omega)] at hoh
    rcases hg : pyGet w.frame (i : Int) with err | Q
    · rw [hg] at hoh; cases hoh
    · rw [hg] at hoh
      exact ⟨Q, pyGet_nat hg, (Except.ok.inj hoh).symm⟩
  have hQu : UnitRotor Q := hunit Q (List.mem_of_getElem? hQ)
  have hoside : 0 ≤ dot o (rotateVec (Q * R) zHat) := by
    have e1 : vec oh = (absQ (vecQuat o))⁻¹ • rotateVec (star Q) o := by
      have e2 : normalized (vecQuat o) = vecQuat ((absQ (vecQuat o))⁻¹ • o) := by
        unfold normalized
        apply QuaternionAlgebra.ext
        · show (absQ (vecQuat o))⁻¹ * 0 = 0
          ring
        · rfl
        · rfl
        · rfl
      rw [hoQ, Verif.Rotation.unit_inv hQu, e2, ← Verif.Lemmas.Bms.rotateVec_smul]
      unfold rotateVec
      rw [star_star]
      rfl
    rw [e1, dot_smul, ← hRz, dot_rotate hQu, ← Props.AbdTransform.rotateVec_mul] at hdot
    by_cases hz : absQ (vecQuat o) = 0
    · have hz' : Quaternion.normSq (vecQuat o) = 0 := (Real.sqrt_eq_zero Quaternion.normSq_nonneg).1 hz
      have ho0 : o = 0 := by
        have h0 := Quaternion.normSq_eq_zero.1 hz'
        funext j
        fin_cases j
        · exact congrArg QuaternionAlgebra.imI h0
        · exact congrArg QuaternionAlgebra.imJ h0
        · exact congrArg QuaternionAlgebra.imK h0
      rw [ho0]
      simp [dot]
    · have hpos : 0 < (absQ (vecQuat o))⁻¹ := inv_pos.2 (lt_of_le_of_ne (Real.sqrt_nonneg _) (Ne.symm hz))
      exact nonneg_of_mul_nonneg_right hdot hpos
  -- the interpolated row of the result
  have hcr : RowRotated w.ellMin w.ellMax R d (combine (ext.weights (slice w.t i1 i2) tFid) (slice W.data i1 i2)) := by
    rw [← hd]
    refine combine_rotated _ _ _ (by rw [slice_length, slice_length, hlen]) fun k x hk => ?_
    rw [slice_getElem?] at hk ⊢
    split at hk
    · rename_i hlt
      rw [if_pos hlt]
      exact hrows _ x hk
    · cases hk
  obtain ⟨hz, r, -, hph⟩ := hrow _ hcr
  refine ⟨R, hRu, by rw [← he]; exact hrot.1, by rw [← hW]; exact hrot.2.1, by rw [← hW]; exact hrot.2.2.1, by rw [← hW]; exact hfr, hlen, hrows, i, i1, i2, om, o, Q * R, _, F * R, hw, ho, hoo, ?_, ?_, hz, samePhase_of ⟨hph.1, hph.2.1⟩, hoside, hside⟩
  · rw [List.getElem?_map, hQ]; rfl
  · unfold instant
    rw [if_neg hc2]
    simp only [slice_map]
    rw [hsquad.mul _ _ _ _ (by rw [hsl]; omega) hRu, hF]

/-! ## The phase of the (2,2) mode -/

/-- The rotor that takes the z axis to itself. -/
theorem rotorTo_z : rotorTo (vecQuat zHat) = 1 := by
  have hq : -vecQuat zHat * vecQuat zHat = 1 := by
    apply QuaternionAlgebra.ext
    · show (-vecQuat zHat * vecQuat zHat).re = 1
      rw [Quaternion.re_mul]; simp only [Quaternion.re_neg, Quaternion.imI_neg, Quaternion.imJ_neg, Quaternion.imK_neg, vecQuat_re, vecQuat_I, vecQuat_J, vecQuat_K, z0, z1, z2]; norm_num
    · show (-vecQuat zHat * vecQuat zHat).imI = 0
      rw [Quaternion.imI_mul]; simp only [Quaternion.re_neg, Quaternion.imI_neg, Quaternion.imJ_neg, Quaternion.imK_neg, vecQuat_re, vecQuat_I, vecQuat_J, vecQuat_K, z0, z1, z2]; norm_num
    · show (-vecQuat zHat * vecQuat zHat).imJ = 0
      rw [Quaternion.imJ_mul]; simp only [Quaternion.re_neg, Quaternion.imI_neg, Quaternion.imJ_neg, Quaternion.imK_neg, vecQuat_re, vecQuat_I, vecQuat_J, vecQuat_K, z0, z1, z2]; norm_num
    · show (-vecQuat zHat * vecQuat zHat).imK = 0
      rw [Quaternion.imK_mul]; simp only [Quaternion.re_neg, Quaternion.imI_neg, Quaternion.imJ_neg, Quaternion.imK_neg, vecQuat_re, vecQuat_I, vecQuat_J, vecQuat_K, z0, z1, z2]; norm_num
  have h1 : absQ 1 = 1 := by unfold absQ; rw [map_one, Real.sqrt_one]
  unfold rotorTo sqrtQ
  rw [hq, if_neg (by rw [map_one]; norm_num), if_neg (by rw [h1, Quaternion.re_one]; norm_num), h1]
  have hc : Real.sqrt (1 / 2 / (1 + (1 : Quaternion ℝ).re)) = 1 / 2 := by
    rw [Quaternion.re_one, show (1 / 2 / (1 + 1) : ℝ) = (1 / 2) ^ 2 by norm_num]
    exact Real.sqrt_sq (by norm_num)
  simp only [hc]
  apply QuaternionAlgebra.ext
  · show (1 + (1 : Quaternion ℝ).re) * (1 / 2) = (1 : Quaternion ℝ).re
    rw [Quaternion.re_one]; norm_num
  · show (1 : Quaternion ℝ).imI * (1 / 2) = (1 : Quaternion ℝ).imI
    rw [Quaternion.imI_one]; norm_num
  · show (1 : Quaternion ℝ).imJ * (1 / 2) = (1 : Quaternion ℝ).imJ
    rw [Quaternion.imJ_one]; norm_num
  · show (1 : Quaternion ℝ).imK * (1 / 2) = (1 : Quaternion ℝ).imK
    rw [Quaternion.imK_one]; norm_num

/-- C75: if the two modes `(2, ±2)` are conjugates of each other after the tilt, and not negative numbers, then both are positive after the alignment: their phase is zero. -/
theorem phase_zero_partial {a b c : Int} (ha : 0 ≤ a) (h2 : a ≤ 2) (hb : 2 ≤ b) (hc : c ≤ b) (d : Row ℂ) (F : Quaternion ℝ) (hF : UnitRotor F) (ω : Quaternion ℝ) (x : Vec)
    (hx : Spec.Align.Top (LLMatrix d (LMRange a c)) x) (nHat : Vec) (D tmp d' : Row ℂ) (hd : RowRotated a b (alignRotor a b d F ω (vecQuat x) nHat D tmp) d d')
    (hsym : ∀ V r, (V = x ∨ V = -x) → 0 ≤ dot (vec ω) V → RowRotated a b (rotorTo (vecQuat V)) d r → fn a r 2 (-2) = conj (fn a r 2 2) ∧ (fn a r 2 2).arg ≠ Real.pi) :
    fn a d' 2 2 = ‖fn a d' 2 2‖ ∧ fn a d' 2 (-2) = ‖fn a d' 2 (-2)‖ := by
  obtain ⟨V, hVx, hV, -, -, -, hrow⟩ := alignRotor_spec ha h2 hb hc d F hF ω x hx nHat D tmp
  obtain ⟨-, r, hr, h1, h2, -⟩ := hrow d' hd
  obtain ⟨hs, hne⟩ := hsym V r hVx hV hr
  have hphase : phase (fn a r 2 2) + phase (fn a r 2 (-2)) = 0 := by
    unfold phase
    rw [hs, Complex.arg_conj, if_neg hne]
    ring
  rw [hphase] at h1 h2
  simp only [zero_div, Complex.ofReal_zero, zero_mul, Complex.exp_zero, mul_one] at h1 h2
  exact ⟨h1, h2⟩

/-- The hypotheses are met: `(2, ±2)` modes `± i` and a frame whose z axis is dominant and along the angular velocity. -/
example (d : Row ℂ) (hd : ∀ m : Int, fn 2 d 2 m = if m = 2 then Complex.I else if m = -2 then -Complex.I else 0) (V : Vec) (r : Row ℂ) (hVx : V = zHat ∨ V = -zHat)
    (hV : 0 ≤ dot (vec (vecQuat zHat)) V) (hr : RowRotated 2 2 (rotorTo (vecQuat V)) d r) : fn 2 r 2 (-2) = conj (fn 2 r 2 2) ∧ (fn 2 r 2 2).arg ≠ Real.pi := by
  have hVz : V = zHat := by
    rcases hVx with h | h
    · exact h
    · exfalso
      rw [h, dot_neg] at hV
      have : dot (vec (vecQuat zHat)) zHat = 1 := by
        show (0 : ℝ) * 0 + 0 * 0 + 1 * 1 = 1
        norm_num
      rw [this] at hV
      norm_num at hV
  rw [hVz, rotorTo_z] at hr
  have hm : ∀ m : Int, -2 ≤ m → m ≤ 2 → fn 2 r 2 m = fn 2 d 2 m := by
    intro m h h'
    show r (lmIndex 2 m 2) = _
    rw [hr 2 m (by norm_num) (by norm_num) h h', Verif.Rotation.rot_one 2 _ m ⟨h, h'⟩]
    rfl
  rw [hm 2 (by norm_num) (by norm_num), hm (-2) (by norm_num) (by norm_num), hd, hd, if_pos rfl, if_neg (by norm_num), if_pos rfl, Complex.arg_I, Complex.conj_I]
  refine ⟨rfl, ?_⟩
  have := Real.pi_pos
  intro h
  linarith

/-- Two modes of degree 2: `(2, 2)` is 1 and `(2, -2)` is `i`. -/
noncomputable def exRow : Row ℂ := fun k => if k = 4 then 1 else if k = 0 then Complex.I else 0

theorem exRow_modes (m : Int) : fn 2 exRow 2 m = if m = 2 then 1 else if m = -2 then Complex.I else 0 := by
  show exRow (lmIndex 2 m 2) = _
  unfold exRow lmIndex
  have e1 : ((2 : Int) * (2 + 1) - 2 ^ 2 + m = 4) ↔ m = 2 := by omega
  have e2 : ((2 : Int) * (2 + 1) - 2 ^ 2 + m = 0) ↔ m = -2 := by omega
  simp only [e1, e2]

theorem exRow_spread (v : Vec) : spread 2 2 (fn 2 exRow) v = 2 * v 0 ^ 2 + 2 * v 1 ^ 2 + 8 * v 2 ^ 2 := by
  have s4 : Real.sqrt 4 = 2 := by rw [show (4 : ℝ) = 2 ^ 2 by norm_num]; exact Real.sqrt_sq (by norm_num)
  have f1 : ¬ (2 : Fin 3) = 0 := by decide
  have f2 : ¬ (2 : Fin 3) = 1 := by decide
  have hI : -2 / (2 * Complex.I) = Complex.I := by
    rw [div_eq_iff (by simp)]
    linear_combination (-2) * Complex.I_mul_I
  have c2 : vL v (fn 2 exRow) 2 2 = 2 * v 2 := by
    simp only [vL, Fin.sum_univ_three, L, raise, lower, exRow_modes, f1, f2]
    norm_num
    ring
  have c1 : vL v (fn 2 exRow) 2 1 = v 0 + v 1 * Complex.I := by
    simp only [vL, Fin.sum_univ_three, L, raise, lower, exRow_modes, f1, f2]
    norm_num [s4, hI]
  have c0 : vL v (fn 2 exRow) 2 0 = 0 := by
    simp only [vL, Fin.sum_univ_three, L, raise, lower, exRow_modes, f1, f2]
    norm_num
  have d1 : vL v (fn 2 exRow) 2 (-1) = v 0 * Complex.I + v 1 := by
    simp only [vL, Fin.sum_univ_three, L, raise, lower, exRow_modes, f1, f2]
    norm_num [s4, hI]
  have d2 : vL v (fn 2 exRow) 2 (-2) = -2 * v 2 * Complex.I := by
    simp only [vL, Fin.sum_univ_three, L, raise, lower, exRow_modes, f1, f2]
    norm_num
    ring
  unfold spread Verif.Spec.AngMom.inner
  rw [show Finset.Icc (2 : Int) 2 = {2} from rfl, Finset.sum_singleton, show Finset.Icc (-2 : Int) 2 = {-2, -1, 0, 1, 2} from by decide,
    Finset.sum_insert (by decide), Finset.sum_insert (by decide), Finset.sum_insert (by decide), Finset.sum_insert (by decide), Finset.sum_singleton, c2, c1, c0, d1, d2]
  simp only [← Complex.normSq_eq_conj_mul_self, ← Complex.ofReal_add, Complex.ofReal_re]
  simp only [Complex.normSq_apply]
  norm_num
  ring

theorem exRow_top : Spec.Align.Top (LLMatrix exRow (LMRange 2 2)) zHat := by
  refine ⟨by rw [Fin.sum_univ_three, z0, z1, z2]; norm_num, fun v hv => ?_⟩
  rw [Props.ModeCalc.quad_form 2 2 (by norm_num), Props.ModeCalc.quad_form 2 2 (by norm_num)]
  refine (le_of_eq (exRow_spread v)).trans ((?_ : _ ≤ _).trans (le_of_eq (exRow_spread zHat).symm))
  rw [z0, z1, z2]
  rw [Fin.sum_univ_three] at hv
  nlinarith [sq_nonneg (v 0), sq_nonneg (v 1)]

/-- C75: the phase of the `(2,2)` mode is not always zero after the alignment, as the documentation says: with `(2,2)` and `(2,-2)` modes `1` and `i` in a frame whose z axis is already dominant,
it becomes `π/4`. -/
theorem phase_not_zero (D tmp : Row ℂ) : ∀ d', RowRotated 2 2 (alignRotor 2 2 exRow 1 (vecQuat zHat) (vecQuat zHat) xHat D tmp) exRow d' →
    fn 2 d' 2 2 = Complex.exp ((Real.pi / 4 : ℝ) * Complex.I) ∧ (fn 2 d' 2 2).im ≠ 0 := by
  intro d' hd
  obtain ⟨V, hVx, hV, -, -, -, hrow⟩ := alignRotor_spec (a := 2) (b := 2) (c := 2) (by norm_num) (by norm_num) (by norm_num) (by norm_num) exRow 1 Verif.Rotation.unit_one (vecQuat zHat) zHat exRow_top xHat D tmp
  obtain ⟨-, r, hr, h1, -, h3, -⟩ := hrow d' hd
  have hVz : V = zHat := by
    rcases hVx with h | h
    · exact h
    · exfalso
      rw [h, dot_neg] at hV
      have : dot (vec (vecQuat zHat)) zHat = 1 := by
        show (0 : ℝ) * 0 + 0 * 0 + 1 * 1 = 1
        norm_num
      rw [this] at hV
      norm_num at hV
  rw [hVz, rotorTo_z] at hr
  have hm : ∀ m : Int, -2 ≤ m → m ≤ 2 → fn 2 r 2 m = fn 2 exRow 2 m := by
    intro m h h'
    show r (lmIndex 2 m 2) = _
    rw [hr 2 m (by norm_num) (by norm_num) h h', Verif.Rotation.rot_one 2 _ m ⟨h, h'⟩]
    rfl
  rw [h3, hm 2 (by norm_num) (by norm_num), hm (-2) (by norm_num) (by norm_num), exRow_modes, exRow_modes] at h1
  have hph : (phase (if (2 : Int) = 2 then (1 : ℂ) else if (2 : Int) = -2 then Complex.I else 0) + phase (if (-2 : Int) = 2 then (1 : ℂ) else if (-2 : Int) = -2 then Complex.I else 0)) / 2 = Real.pi / 4 := by
    unfold phase
    norm_num
    ring
  rw [hph] at h1
  simp only [if_true, norm_one, Complex.ofReal_one, one_mul] at h1
  refine ⟨h1, ?_⟩
  rw [h1, Complex.exp_ofReal_mul_I_im, Real.sin_pi_div_four]
  positivity

/-! ## The hypotheses are met -/

/-- Every matrix has a unit vector of greatest expectation value. -/
theorem top_exists (M : Fin 3 → Fin 3 → ℝ) : ∃ x, Spec.Align.Top M x := by
  have hcomp : IsCompact {v : Vec | ∑ i, v i ^ 2 = 1} := by
    refine Metric.isCompact_of_isClosed_isBounded (isClosed_eq (by fun_prop) continuous_const) ?_
    refine (Metric.isBounded_iff_subset_closedBall 0).2 ⟨1, fun v hv => ?_⟩
    rw [Metric.mem_closedBall, dist_zero_right]
    refine (pi_norm_le_iff_of_nonneg (by norm_num)).2 fun i => ?_
    rw [Real.norm_eq_abs]
    have : v i ^ 2 ≤ 1 := by
      rw [← (hv : ∑ i, v i ^ 2 = 1)]
      exact Finset.single_le_sum (f := fun i => v i ^ 2) (fun j _ => sq_nonneg _) (Finset.mem_univ i)
    exact abs_le_one_iff_mul_self_le_one.2 (by nlinarith)
  obtain ⟨x, hx, hmax⟩ := hcomp.exists_isMaxOn ⟨zHat, by show ∑ i, zHat i ^ 2 = 1; rw [Fin.sum_univ_three, z0, z1, z2]; norm_num⟩
    (f := fun v : Vec => ∑ i, ∑ j, v i * M i j * v j) (by fun_prop)
  exact ⟨x, hx, fun v hv => hmax hv⟩

/-- Functions as in the other packages: the first row and rotor for every time, an eigenvector, and an angular velocity along the z axis. -/
noncomputable def exExt : Ext where
  weights _ _ i := if i = 0 then 1 else 0
  squad l _ _ := l.headD 1
  eigh M := (top_exists M).choose
  omega _ i1 i2 := .ok (List.replicate (i2 - i1) zHat)

/-- A waveform in a corotating frame. -/
noncomputable def exWave : Wave := ⟨[0, 1, 2], 2, 2, [exRow, exRow, exRow], [1, 1, Props.Rotation.qi], 4⟩

theorem exExt_facts : Eigh exExt 2 2 ∧ Squad exExt := by
  refine ⟨fun d => (top_exists _).choose_spec, ⟨fun l ts x _ hl hu => ?_, fun l ts x R hl _ => ?_⟩⟩
  · match l, hl, hu with
    | F :: l, _, hu => exact hu F (by simp)
  · match l, hl with
    | F :: l, _ => rfl

example (nHat : Vec) (D tmp D' tmp' : Row ℂ) : ∃ W, align exExt exWave 1 nHat none D tmp D' tmp' = .ok (W, none) ∧ (∀ F ∈ exWave.frame, UnitRotor F) ∧ 2 ≤ exWave.t.length := by
  have ht : exWave.t.Pairwise (· < ·) := by
    show List.Pairwise (· < ·) [(0 : ℝ), 1, 2]
    norm_num
  obtain ⟨R, hR⟩ := (alignment_exists exExt exWave 1 nHat none D tmp ht (by show 2 ≤ 3; norm_num) (fun i1 i2 _ _ => ⟨_, rfl, List.length_replicate⟩)).2
    ⟨Or.inr (Or.inr rfl), rfl, ⟨0, 2, rfl, rfl, by norm_num, by norm_num⟩, ⟨le_rfl, le_rfl⟩, fun l hl => by cases hl⟩
  refine ⟨(rotateWave exWave (.quat R) D' tmp').1, ?_, ?_, by show 2 ≤ 3; norm_num⟩
  · show (getAlignment exExt exWave 1 nHat none D tmp >>= _) = _
    rw [hR]
    have := (Props.Rotation.constant_rotation ⟨exWave.ellMin, exWave.ellMax, exWave.data, .vec exWave.frame⟩ (by show (0 : Int) ≤ 2; norm_num) R D' tmp').1
    exact congrArg Except.ok (Prod.ext rfl this)
  · intro F hF
    have hF' : F ∈ [1, 1, Props.Rotation.qi] := hF
    simp only [List.mem_cons, List.not_mem_nil, or_false] at hF'
    rcases hF' with h | h | h
    · rw [h]; exact Verif.Rotation.unit_one
    · rw [h]; exact Verif.Rotation.unit_one
    · rw [h]; exact Props.Rotation.qi_unit

end Verif.Props.Align
