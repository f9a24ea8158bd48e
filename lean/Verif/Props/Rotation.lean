import Verif.Lemmas.Rotation

/-!
# C11, C12, C13: rotating the decomposition basis
-/

namespace Verif.Props.Rotation
open Verif.Modes Verif.Wigner Verif.Rotation Verif.Spec.Rotation

/-- The result `V` of a rotation has the modes of `W` rotated by `R i` at time `i`. -/
def Rotated (V W : Wave) (R : Nat → Quaternion ℝ) : Prop :=
  V.ellMin = W.ellMin ∧ V.ellMax = W.ellMax ∧ V.data.length = W.data.length ∧
    ∀ i ell m, HasMode W i ell m → mode V i ell m = rot ell (R i) (mode W i ell) m

/-! ### One call -/

theorem rotateConst_rotated (W : Wave) (h0 : 0 ≤ W.ellMin) (R : Quaternion ℝ) (D tmp : Row ℂ) :
    (rotateConst W R D tmp).2 = none ∧ Rotated (rotateConst W R D tmp).1 W (fun _ => R) := by
  have hr : ∀ F : QArr, Rotated
      (Wave.mk W.ellMin W.ellMax (byConstant W.ellMin W.ellMax (fillD R W.ellMin W.ellMax D) W.data tmp) F)
      W (fun _ => R) := by
    intro F
    refine ⟨rfl, rfl, byConstant_length _ _ _ _ _, ?_⟩
    rintro i ell m ⟨hi, h1, h2, hm⟩
    obtain ⟨row', hg, hrow⟩ := byConstant_get R W.ellMin W.ellMax h0 D W.data tmp i (W.data[i])
      (List.getElem?_eq_getElem hi)
    unfold mode
    simp only [hg, List.getElem?_eq_getElem hi]
    exact hrow ell m h1 h2 hm
  unfold rotateConst
  simp only
  split
  · exact ⟨rfl, hr _⟩
  · exact ⟨rfl, hr _⟩

theorem seriesData_rotated (W : Wave) (h0 : 0 ≤ W.ellMin) (Rs : List (Quaternion ℝ)) (D : Row ℂ)
    (h : W.data.length = Rs.length) (F : QArr) :
    Rotated { W with data := bySeries W.ellMin W.ellMax W.data Rs D, frame := F } W (fun i => Rs.getD i 1) := by
  refine ⟨rfl, rfl, bySeries_length _ _ _ _ _ h, ?_⟩
  rintro i ell m ⟨hi, h1, h2, hm⟩
  obtain ⟨row', hg, hrow⟩ := bySeries_get W.ellMin W.ellMax h0 D W.data Rs i (W.data[i]) (Rs[i]'(by omega))
    (List.getElem?_eq_getElem hi) (List.getElem?_eq_getElem _)
  unfold mode
  simp only [hg, List.getElem?_eq_getElem hi]
  rw [hrow ell m h1 h2 hm]
  simp [List.getD_eq_getElem?_getD, List.getElem?_eq_getElem (show i < Rs.length by omega)]

/-! ### C11: constant rotations -/

/-- A constant rotation never raises and gives exactly the modes `Σ_{m'} f(ell, m') D^ell_{m',m}(R)`,
whatever the work arrays contained. -/
theorem constant_rotation (W : Wave) (h0 : 0 ≤ W.ellMin) (R : Quaternion ℝ) (D tmp : Row ℂ) :
    (rotate W (.quat R) D tmp).2 = none ∧ Rotated (rotate W (.quat R) D tmp).1 W (fun _ => R) :=
  rotateConst_rotated W h0 R D tmp

theorem constant_frame (W : Wave) (l : List (Quaternion ℝ)) (hl : W.frame = .vec l) (R : Quaternion ℝ) (D tmp : Row ℂ) :
    (rotate W (.quat R) D tmp).1.frame = .vec (if l = [] then [R] else l.map (· * R)) := by
  unfold rotate unwrap
  simp only
  unfold rotateConst
  simp only [hl]
  cases l with
  | nil => simp [QArr.nonempty]
  | cons q l => simp [QArr.nonempty, QArr.mulQ]

theorem mode_congr {V W : Wave} {R : Nat → Quaternion ℝ} (h : Rotated V W R) {i : Nat} {ell m : Int} :
    HasMode V i ell m ↔ HasMode W i ell m := by
  unfold HasMode; rw [h.1, h.2.1, h.2.2.1]

theorem Rotated.trans {U V W : Wave} {R S : Nat → Quaternion ℝ} (h1 : Rotated V W R) (h2 : Rotated U V S) :
    Rotated U W (fun i => R i * S i) := by
  refine ⟨h2.1.trans h1.1, h2.2.1.trans h1.2.1, h2.2.2.1.trans h1.2.2.1, ?_⟩
  intro i ell m hm
  rw [h2.2.2.2 i ell m ((mode_congr h1).mpr hm)]
  obtain ⟨hi, he1, he2, hm'⟩ := hm
  rw [rot_congr ell (S i) _ (rot ell (R i) (mode W i ell)) m
    (fun k hk => h1.2.2.2 i ell k ⟨hi, he1, he2, hk⟩), rot_rot ell _ _ _ _ hm']

theorem Rotated.unique {U V W : Wave} {R S : Nat → Quaternion ℝ} (h1 : Rotated U W R) (h2 : Rotated V W S)
    (h : ∀ i, i < W.data.length → R i = S i) : SameModes U V := by
  refine ⟨h1.1.trans h2.1.symm, h1.2.1.trans h2.2.1.symm, h1.2.2.1.trans h2.2.2.1.symm, ?_⟩
  intro i ell m hm
  have hm := (mode_congr h2).mp hm
  rw [h1.2.2.2 i ell m hm, h2.2.2.2 i ell m hm, h i hm.1]

/-- **C11, group law**: rotating by `R1` and then by `R2` gives the same modes and the same stored frame
as rotating once by `R1 * R2`. -/
theorem rotate_rotate (W : Wave) (h0 : 0 ≤ W.ellMin) (l : List (Quaternion ℝ)) (hl : W.frame = .vec l)
    (R1 R2 : Quaternion ℝ) (D1 tmp1 D2 tmp2 D3 tmp3 : Row ℂ) :
    SameModes (rotate (rotate W (.quat R1) D1 tmp1).1 (.quat R2) D2 tmp2).1 (rotate W (.quat (R1 * R2)) D3 tmp3).1 ∧
    (rotate (rotate W (.quat R1) D1 tmp1).1 (.quat R2) D2 tmp2).1.frame =
      (rotate W (.quat (R1 * R2)) D3 tmp3).1.frame := by
  have h1 := (constant_rotation W h0 R1 D1 tmp1).2
  have h0' : 0 ≤ (rotate W (.quat R1) D1 tmp1).1.ellMin := by rw [h1.1]; exact h0
  have h2 := (constant_rotation _ h0' R2 D2 tmp2).2
  have h3 := (constant_rotation W h0 (R1 * R2) D3 tmp3).2
  refine ⟨(h1.trans h2).unique h3 (fun _ _ => rfl), ?_⟩
  rw [constant_frame _ _ (constant_frame W l hl R1 D1 tmp1), constant_frame W l hl]
  cases l with
  | nil => simp
  | cons q l => simp [mul_assoc]

/-- **C11, inverse**: rotating by a unit rotor and then by its inverse restores the modes, and the stored
frame when there was one; a waveform without a frame ends with the identity rotor as its frame. -/
theorem rotate_inverse (W : Wave) (h0 : 0 ≤ W.ellMin) (l : List (Quaternion ℝ)) (hl : W.frame = .vec l)
    (R : Quaternion ℝ) (hR : UnitRotor R) (D1 tmp1 D2 tmp2 : Row ℂ) :
    SameModes (rotate (rotate W (.quat R) D1 tmp1).1 (.quat R⁻¹) D2 tmp2).1 W ∧
    (rotate (rotate W (.quat R) D1 tmp1).1 (.quat R⁻¹) D2 tmp2).1.frame = .vec (if l = [] then [1] else l) := by
  have hinv : R⁻¹ = star R := unit_inv hR
  rw [hinv]
  have h1 := (constant_rotation W h0 R D1 tmp1).2
  have h0' : 0 ≤ (rotate W (.quat R) D1 tmp1).1.ellMin := by rw [h1.1]; exact h0
  have h2 := (constant_rotation _ h0' (star R) D2 tmp2).2
  have h3 := h1.trans h2
  refine ⟨⟨h3.1, h3.2.1, h3.2.2.1, ?_⟩, ?_⟩
  · intro i ell m hm
    rw [h3.2.2.2 i ell m hm, unit_right hR, rot_one ell _ m hm.2.2.2]
  · rw [constant_frame _ _ (constant_frame W l hl R D1 tmp1)]
    cases l with
    | nil => simp [unit_right hR]
    | cons q l => simp [mul_assoc, unit_right hR]

/-- **C11, norm**: a unit rotor leaves the power in every `ell` unchanged at every time. -/
theorem rotate_power (W : Wave) (h0 : 0 ≤ W.ellMin) (R : Quaternion ℝ) (hR : UnitRotor R) (D tmp : Row ℂ)
    (i : Nat) (hi : i < W.data.length) (ell : Int) (he : W.ellMin ≤ ell ∧ ell ≤ W.ellMax) :
    power ell (mode (rotate W (.quat R) D tmp).1 i ell) = power ell (mode W i ell) := by
  have h := (constant_rotation W h0 R D tmp).2
  rw [← rot_power ell R hR (mode W i ell)]
  unfold power
  apply Finset.sum_congr rfl
  intro m hm
  rw [h.2.2.2 i ell m ⟨hi, he.1, he.2, Finset.mem_Icc.mp hm⟩]

/-- The squared norm over all modes, as `norm(take_sqrt=False)` returns it for one time. -/
noncomputable def totalPower (W : Wave) (i : Nat) : ℝ :=
  ∑ ell ∈ Finset.Icc W.ellMin W.ellMax, power ell (mode W i ell)

theorem rotate_norm (W : Wave) (h0 : 0 ≤ W.ellMin) (R : Quaternion ℝ) (hR : UnitRotor R) (D tmp : Row ℂ)
    (i : Nat) (hi : i < W.data.length) :
    totalPower (rotate W (.quat R) D tmp).1 i = totalPower W i := by
  have h := (constant_rotation W h0 R D tmp).2
  unfold totalPower
  rw [h.1, h.2.1]
  apply Finset.sum_congr rfl
  intro ell he
  exact rotate_power W h0 R hR D tmp i hi ell (Finset.mem_Icc.mp he)

/-- **C11, no mixing**: the rotated modes of degree `ell` depend only on the old modes of degree `ell`. -/
theorem rotate_no_mixing (V W : Wave) (hV : 0 ≤ V.ellMin) (hW : 0 ≤ W.ellMin) (R : Quaternion ℝ)
    (D1 tmp1 D2 tmp2 : Row ℂ) (i : Nat) (ell : Int)
    (hV' : i < V.data.length ∧ V.ellMin ≤ ell ∧ ell ≤ V.ellMax)
    (hW' : i < W.data.length ∧ W.ellMin ≤ ell ∧ ell ≤ W.ellMax)
    (h : ∀ m, -ell ≤ m ∧ m ≤ ell → mode V i ell m = mode W i ell m) (m : Int) (hm : -ell ≤ m ∧ m ≤ ell) :
    mode (rotate V (.quat R) D1 tmp1).1 i ell m = mode (rotate W (.quat R) D2 tmp2).1 i ell m := by
  rw [(constant_rotation V hV R D1 tmp1).2.2.2.2 i ell m ⟨hV'.1, hV'.2.1, hV'.2.2, hm⟩,
    (constant_rotation W hW R D2 tmp2).2.2.2.2 i ell m ⟨hW'.1, hW'.2.1, hW'.2.2, hm⟩]
  exact rot_congr ell R _ _ m h

/-- A rotor for the examples. -/
noncomputable def qi : Quaternion ℝ := ⟨0, 1, 0, 0⟩

theorem qi_unit : UnitRotor qi :=
  (Quaternion.normSq_def' qi).trans (by show (0 : ℝ) ^ 2 + 1 ^ 2 + 0 ^ 2 + 0 ^ 2 = 1; norm_num)

/-- The hypotheses above are met: a waveform with modes, and a unit rotor that is not the identity. -/
example : ∃ (W : Wave) (R : Quaternion ℝ), 0 ≤ W.ellMin ∧ W.frame = .vec [] ∧ UnitRotor R ∧ R ≠ 1 ∧
    HasMode W 0 2 (-1) ∧ mode W 0 2 (-1) ≠ 0 := by
  refine ⟨⟨2, 8, [fun _ => 1], .vec []⟩, qi, by simp, rfl, qi_unit, ?_, ?_, ?_⟩
  · intro h; have := congrArg QuaternionAlgebra.re h; change (0 : ℝ) = 1 at this; norm_num at this
  · unfold HasMode; simp
  · unfold mode; simp

/-! ### C13: frame shapes -/

/-- The rotor that the argument gives for time `i`. -/
noncomputable def argOf : RArg → Nat → Quaternion ℝ
  | .quat R, _ => R
  | .list l, i => frameOf l i
  | .arr (.vec l), i => frameOf l i
  | _, _ => 1

theorem frameOf_getD {l : List (Quaternion ℝ)} (h : l.length ≠ 1) (i : Nat) : frameOf l i = l.getD i 1 := by
  match l, h with
  | [], _ => simp [frameOf]
  | [_], h => simp at h
  | _ :: _ :: _, _ => rfl

theorem frameOf_map (l : List (Quaternion ℝ)) (R : Quaternion ℝ) (i : Nat) (h : l ≠ [])
    (hi : l.length = 1 ∨ i < l.length) : frameOf (l.map (· * R)) i = frameOf l i * R := by
  match l, h with
  | [q], _ => simp [frameOf]
  | q :: q' :: l, _ =>
    have hi : i < (q :: q' :: l).length := by simpa using hi
    rw [frameOf_getD (by simp), frameOf_getD (by simp)]
    simp only [List.getD_eq_getElem?_getD, List.getElem?_map, List.getElem?_eq_getElem hi]
    rfl

/-- Rotation by one rotor, for every frame shape: no exception, and the frame is the pointwise product. -/
theorem frame_const (W : Wave) (l : List (Quaternion ℝ)) (hs : Shaped W l) (h0 : 0 ≤ W.ellMin)
    (R : Quaternion ℝ) (D tmp : Row ℂ) :
    (rotate W (.quat R) D tmp).2 = none ∧
    ∃ l', Shaped (rotate W (.quat R) D tmp).1 l' ∧ l' ≠ [] ∧ (l ≠ [] → l'.length = l.length) ∧
      (l = [] → l'.length = 1) ∧
      ∀ i, i < W.data.length → frameOf l' i = frameOf l i * R := by
  obtain ⟨h1, h2⟩ := constant_rotation W h0 R D tmp
  refine ⟨h1, _, ⟨constant_frame W l hs.1 R D tmp, ?_⟩, ?_, ?_, ?_, ?_⟩
  · rw [h2.2.2.1]
    split
    · simp
    · rename_i h
      rw [List.length_map]; exact hs.2
  · split <;> simp_all
  · intro h; rw [if_neg h, List.length_map]
  · intro h; rw [if_pos h]; rfl
  · intro i hi
    split
    · rename_i h; subst h; simp [frameOf]
    · rename_i h
      apply frameOf_map l R i h
      rcases hs.2 with h' | h' | h'
      · exact absurd (List.length_eq_zero_iff.mp h') h
      · exact Or.inl h'
      · right; omega

/-- Rotation by a series, when the frame is absent or has one rotor per time. -/
theorem series_ok (W : Wave) (l : List (Quaternion ℝ)) (hs : Shaped W l) (h0 : 0 ≤ W.ellMin)
    (Rs : List (Quaternion ℝ)) (D : Row ℂ) (hR : Rs.length = W.data.length) (hR1 : Rs.length ≠ 1) (hl : l.length ≠ 1) :
    (rotateSeries W Rs D).2 = none ∧ Rotated (rotateSeries W Rs D).1 W (frameOf Rs) ∧
    ∃ l', Shaped (rotateSeries W Rs D).1 l' ∧ l'.length = W.data.length ∧
      ∀ i, i < W.data.length → frameOf l' i = frameOf l i * frameOf Rs i := by
  have hrot : ∀ F, Rotated (Wave.mk W.ellMin W.ellMax (bySeries W.ellMin W.ellMax W.data Rs D) F) W (frameOf Rs) := by
    intro F
    have h := seriesData_rotated W h0 Rs D hR.symm F
    rw [show frameOf Rs = fun i => Rs.getD i 1 from funext (frameOf_getD hR1)]
    exact h
  unfold rotateSeries
  rw [if_neg (by omega)]
  simp only
  obtain ⟨hf, hlen⟩ := hs
  rw [hf]
  by_cases hnil : l = []
  · subst hnil
    have : seriesFrame (.vec []) Rs = .ok (.vec Rs) := by simp [seriesFrame, QArr.nonempty]
    rw [this]
    refine ⟨rfl, hrot _, Rs, ⟨rfl, Or.inr (Or.inr ?_)⟩, hR, ?_⟩
    · rw [hR]; exact (hrot (.vec [])).2.2.1.symm
    · intro i _; simp [frameOf_getD]
  · have hlen' : l.length = W.data.length := by
      rcases hlen with h | h | h
      · exact absurd (List.length_eq_zero_iff.mp h) hnil
      · exact absurd h hl
      · exact h
    have : seriesFrame (.vec l) Rs = .ok (.vec (List.zipWith (· * ·) l Rs)) := by
      unfold seriesFrame
      have : (QArr.vec l).nonempty = true := by cases l <;> simp_all [QArr.nonempty]
      rw [if_pos this, if_neg (by exact hl)]
      unfold QArr.mulVec mulRow
      simp only
      rw [if_pos (by omega)]
      rfl
    rw [this]
    have hz : (List.zipWith (· * ·) l Rs).length = W.data.length := by
      rw [List.length_zipWith]; omega
    refine ⟨rfl, hrot _, _, ⟨rfl, Or.inr (Or.inr ?_)⟩, hz, ?_⟩
    · rw [hz]; exact (hrot (.vec [])).2.2.1.symm
    · intro i hi
      rw [frameOf_getD (by omega), frameOf_getD hl, frameOf_getD hR1]
      simp only [List.getD_eq_getElem?_getD, List.getElem?_zipWith,
        List.getElem?_eq_getElem (show i < l.length by omega), List.getElem?_eq_getElem (show i < Rs.length by omega)]
      rfl

/-- A series of the wrong length is refused with `ValueError`, and nothing has been changed. -/
theorem series_wrong_length (W : Wave) (Rs : List (Quaternion ℝ)) (D : Row ℂ) (h : Rs.length ≠ W.data.length) :
    rotateSeries W Rs D = (W, some .valueError) := by
  unfold rotateSeries
  exact if_pos (Ne.symm h)

theorem rotate_list (W : Wave) (Rs : List (Quaternion ℝ)) (D tmp : Row ℂ) (h : Rs.length ≠ 1) :
    rotate W (.list Rs) D tmp = rotateSeries W Rs D ∧ rotate W (.arr (.vec Rs)) D tmp = rotateSeries W Rs D := by
  match Rs, h with
  | [], _ => exact ⟨rfl, rfl⟩
  | [_], h => simp at h
  | _ :: _ :: _, _ => exact ⟨rfl, rfl⟩

/-- The argument is a quaternion, a list of quaternions or a one-dimensional array; its number of rotors. -/
def argLen : RArg → Option Nat
  | .quat _ => some 1
  | .list l => some l.length
  | .arr (.vec l) => some l.length
  | _ => none

/-- **C13** (partial): for a stored frame of one of the documented shapes and a given quaternion, list
or one-dimensional array, the call either raises `ValueError` and changes nothing, or leaves a frame of
length 0, 1 or `n_times` equal to the pointwise product of the old frame and the given rotors, and the
modes are rotated by the given rotors.  Missing: a stored frame of one rotor together with a series of
two or more (see `one_rotor_frame_then_series`), arrays of two dimensions (see `matrix_argument`), and
other objects (see `other_argument`). -/
theorem frame_shapes_partial (W : Wave) (l : List (Quaternion ℝ)) (hs : Shaped W l) (h0 : 0 ≤ W.ellMin)
    (R : RArg) (n : Nat) (hR : argLen R = some n) (hex : ¬ (l.length = 1 ∧ 2 ≤ n ∧ n = W.data.length))
    (hex0 : ¬ (l.length = 1 ∧ W.data.length = 0)) (D tmp : Row ℂ) :
    rotate W R D tmp = (W, some .valueError) ∨
    ((rotate W R D tmp).2 = none ∧ Rotated (rotate W R D tmp).1 W (argOf R) ∧
      ∃ l', Shaped (rotate W R D tmp).1 l' ∧
        ∀ i, i < W.data.length → frameOf l' i = frameOf l i * argOf R i) := by
  have hq : ∀ q, (rotate W (.quat q) D tmp).2 = none ∧ Rotated (rotate W (.quat q) D tmp).1 W (fun _ => q) ∧
      ∃ l', Shaped (rotate W (.quat q) D tmp).1 l' ∧
        ∀ i, i < W.data.length → frameOf l' i = frameOf l i * q := by
    intro q
    obtain ⟨h1, l', h2, _, _, _, h3⟩ := frame_const W l hs h0 q D tmp
    exact ⟨h1, (constant_rotation W h0 q D tmp).2, l', h2, h3⟩
  have hser : ∀ Rs : List (Quaternion ℝ), Rs.length = n → n ≠ 1 →
      rotateSeries W Rs D = (W, some .valueError) ∨
      ((rotateSeries W Rs D).2 = none ∧ Rotated (rotateSeries W Rs D).1 W (frameOf Rs) ∧
      ∃ l', Shaped (rotateSeries W Rs D).1 l' ∧
        ∀ i, i < W.data.length → frameOf l' i = frameOf l i * frameOf Rs i) := by
    intro Rs hRs hn
    by_cases hlen : Rs.length = W.data.length
    · right
      obtain ⟨h1, h2, l', h3, _, h4⟩ := series_ok W l hs h0 Rs D hlen (by omega) (by
        intro hl; omega)
      exact ⟨h1, h2, l', h3, h4⟩
    · left; exact series_wrong_length W Rs D hlen
  match R, hR with
  | .quat q, _ => right; exact hq q
  | .list [q], _ => right; exact hq q
  | .arr (.vec [q]), _ => right; exact hq q
  | .list [], h =>
    simp only [argLen, Option.some.injEq] at h
    exact hser [] h (by simp at h; omega)
  | .arr (.vec []), h =>
    simp only [argLen, Option.some.injEq] at h
    exact hser [] h (by simp at h; omega)
  | .list (q :: q' :: t), h =>
    simp only [argLen, Option.some.injEq] at h
    exact hser _ h (by simp at h; omega)
  | .arr (.vec (q :: q' :: t)), h =>
    simp only [argLen, Option.some.injEq] at h
    exact hser _ h (by simp at h; omega)

/-- What the code does in the missing case: a stored frame of one rotor and a series of `n_times ≥ 2`
rotors gives a two-dimensional frame of shape `(n_times, 1)`, for all rotors and all data. -/
theorem one_rotor_frame_then_series (W : Wave) (F : Quaternion ℝ) (hF : W.frame = .vec [F])
    (Rs : List (Quaternion ℝ)) (hR : Rs.length = W.data.length) (h2 : 2 ≤ Rs.length) (D tmp : Row ℂ) :
    (rotate W (.arr (.vec Rs)) D tmp).2 = none ∧
    (rotate W (.arr (.vec Rs)) D tmp).1.frame = .mat (Rs.map fun R => [F * R]) ∧
    ∀ l, ¬ Shaped (rotate W (.arr (.vec Rs)) D tmp).1 l := by
  rw [(rotate_list W Rs D tmp (by omega)).2]
  have : rotateSeries W Rs D = (Wave.mk W.ellMin W.ellMax (bySeries W.ellMin W.ellMax W.data Rs D)
      (.mat (Rs.map fun R => [F * R])), none) := by
    unfold rotateSeries
    rw [if_neg (by omega)]
    simp only [hF]
    have : seriesFrame (.vec [F]) Rs = .ok (.mat (Rs.map fun R => [F * R])) := by
      simp [seriesFrame, QArr.nonempty, QArr.len, QArr.stack]
    rw [this]
  rw [this]
  refine ⟨rfl, rfl, ?_⟩
  rintro l ⟨h, _⟩
  cases h

/-- A further series then makes the frame a square matrix. -/
theorem matrix_frame_then_series (W : Wave) (Fs : List (Quaternion ℝ)) (hF : W.frame = .mat (Fs.map fun q => [q]))
    (hn : Fs.length = W.data.length) (Rs : List (Quaternion ℝ)) (hR : Rs.length = W.data.length) (h2 : 2 ≤ Rs.length)
    (D tmp : Row ℂ) :
    (rotate W (.arr (.vec Rs)) D tmp).2 = none ∧
    (rotate W (.arr (.vec Rs)) D tmp).1.frame = .mat (Fs.map fun F => Rs.map (F * ·)) := by
  rw [(rotate_list W Rs D tmp (by omega)).2]
  unfold rotateSeries
  rw [if_neg (by omega)]
  simp only [hF]
  have : seriesFrame (.mat (Fs.map fun q => [q])) Rs = .ok (.mat (Fs.map fun F => Rs.map (F * ·))) := by
    unfold seriesFrame
    have h1 : (QArr.mat (Fs.map fun q => [q])).nonempty = true := by
      match Fs, hn with
      | [], h => simp at h; omega
      | _ :: _, _ => simp [QArr.nonempty]
    have h3 : (QArr.mat (Fs.map fun q => [q])).len ≠ 1 := by simp [QArr.len]; omega
    rw [if_pos h1, if_neg h3]
    unfold QArr.mulVec
    simp only
    have h4 : ∀ q, mulRow [q] Rs = .ok (Rs.map (q * ·)) := by
      intro q
      unfold mulRow
      rw [if_neg (by simp; omega)]
    have h5 : (Fs.map fun q => [q]).mapM (fun r => mulRow r Rs) = .ok (Fs.map fun F => Rs.map (F * ·)) := by
      clear hF hn h1 h3
      induction Fs with
      | nil => rfl
      | cons q Fs ih =>
        simp only [List.map_cons, List.mapM_cons, h4, ih]
        rfl
    rw [h5]
    rfl
  rw [this]
  exact ⟨rfl, rfl⟩

/-- A two-dimensional array (other than one of a single row) raises `IndexError`, not `ValueError`; the
waveform is unchanged. -/
theorem matrix_argument (W : Wave) (rows : List (List (Quaternion ℝ))) (h : rows.length ≠ 1) (D tmp : Row ℂ) :
    rotate W (.arr (.mat rows)) D tmp = (W, some .indexError) := by
  match rows, h with
  | [], _ => rfl
  | [_], h => simp at h
  | _ :: _ :: _, _ => rfl

/-- Anything that is neither a quaternion nor a list nor an array (a tuple of rotors, say) is accepted
silently, and nothing is rotated. -/
theorem other_argument (W : Wave) (D tmp : Row ℂ) : rotate W .other D tmp = (W, none) := rfl

/-- The hypotheses of `frame_shapes_partial` and of `one_rotor_frame_then_series` are met. -/
example : ∃ W : Wave, Shaped W [1, 1] ∧ 0 ≤ W.ellMin ∧ argLen (.list [1, 1]) = some 2 ∧
    ¬ (([1, 1] : List (Quaternion ℝ)).length = 1 ∧ 2 ≤ 2 ∧ 2 = W.data.length) :=
  ⟨⟨2, 8, [fun _ => 1, fun _ => 2], .vec [1, 1]⟩, ⟨rfl, by simp⟩, by simp, rfl, by simp⟩
example : ∃ (W : Wave) (Rs : List (Quaternion ℝ)), W.frame = .vec [1] ∧ Rs.length = W.data.length ∧ 2 ≤ Rs.length :=
  ⟨⟨2, 8, [fun _ => 1, fun _ => 2], .vec [1]⟩, [1, 1], rfl, rfl, by simp⟩

/-! ### C12: histories of rotations -/

/-- One rotation: by one rotor, or by a series given as a list or as an array. -/
inductive Op where
  | const (R : Quaternion ℝ)
  | series (asList : Bool) (Rs : List (Quaternion ℝ))

def Op.arg : Op → RArg
  | .const R => .quat R
  | .series true Rs => .list Rs
  | .series false Rs => .arr (.vec Rs)

/-- All rotors of the operation are unit quaternions. -/
def Op.unit : Op → Prop
  | .const R => UnitRotor R
  | .series _ Rs => ∀ R ∈ Rs, UnitRotor R

def Op.isConst : Op → Prop
  | .const _ => True
  | .series _ _ => False

/-- A history of rotations; the work arrays of the calls contain anything.  A caller that catches the
exceptions goes on with the waveform as it is. -/
noncomputable def run (W : Wave) : List (Op × Row ℂ × Row ℂ) → Wave
  | [] => W
  | (op, D, tmp) :: ops => run (rotate W op.arg D tmp).1 ops

/-- The inertial modes are those of `W0`, the frame `l` is of a documented shape with unit rotors. -/
structure Inv (W0 : Wave) (l0 : List (Quaternion ℝ)) (W : Wave) (l : List (Quaternion ℝ)) : Prop where
  shaped : Shaped W l
  units : ∀ i, i < W.data.length → UnitRotor (frameOf l i)
  min : W.ellMin = W0.ellMin
  max : W.ellMax = W0.ellMax
  len : W.data.length = W0.data.length
  modes : ∀ i ell m, HasMode W0 i ell m → inertial W l i ell m = inertial W0 l0 i ell m

theorem Inv.step {W0 : Wave} {l0 : List (Quaternion ℝ)} {W V : Wave} {l l' : List (Quaternion ℝ)} {R : Nat → Quaternion ℝ}
    (h : Inv W0 l0 W l) (hrot : Rotated V W R) (hs : Shaped V l')
    (hR : ∀ i, i < W.data.length → UnitRotor (R i))
    (hf : ∀ i, i < W.data.length → frameOf l' i = frameOf l i * R i) : Inv W0 l0 V l' := by
  refine ⟨hs, ?_, hrot.1.trans h.min, hrot.2.1.trans h.max, hrot.2.2.1.trans h.len, ?_⟩
  · intro i hi
    rw [hrot.2.2.1] at hi
    rw [hf i hi]
    exact unit_mul (h.units i hi) (hR i hi)
  · intro i ell m hm
    have hmW : HasMode W i ell m := by
      unfold HasMode at hm ⊢; rw [h.len, h.min, h.max]; exact hm
    rw [← h.modes i ell m hm]
    obtain ⟨hi, he1, he2, hm'⟩ := hmW
    unfold inertial
    rw [rot_congr ell _ (mode V i ell) (rot ell (R i) (mode W i ell)) m
      (fun k hk => hrot.2.2.2 i ell k ⟨hi, he1, he2, hk⟩), rot_rot ell _ _ _ _ hm', hf i hi, star_mul,
      ← mul_assoc, unit_right (hR i hi), one_mul]

theorem Inv.refl (W : Wave) (l : List (Quaternion ℝ)) (hs : Shaped W l)
    (hu : ∀ i, i < W.data.length → UnitRotor (frameOf l i)) : Inv W l W l :=
  ⟨hs, hu, rfl, rfl, rfl, fun _ _ _ _ => rfl⟩

theorem unit_frameOf {Rs : List (Quaternion ℝ)} (h : ∀ R ∈ Rs, UnitRotor R) (i : Nat) : UnitRotor (frameOf Rs i) := by
  match Rs, h with
  | [], _ => exact unit_one
  | [R], h => exact h R (by simp)
  | a :: b :: t, h =>
    rw [frameOf_getD (by simp), List.getD_eq_getElem?_getD]
    by_cases hi : i < (a :: b :: t).length
    · rw [List.getElem?_eq_getElem hi]; exact h _ (List.getElem_mem hi)
    · rw [List.getElem?_eq_none (by omega)]; exact unit_one

/-- The histories covered: the waveform has one time, or all rotations are constant, or it starts with
one rotor per time, or it starts without a frame and the first rotation is a series that fits. -/
def Covered (W : Wave) (l : List (Quaternion ℝ)) (ops : List (Op × Row ℂ × Row ℂ)) : Prop :=
  W.data.length = 1 ∨ (∀ o ∈ ops, o.1.isConst) ∨ (l.length = W.data.length) ∨
    (l = [] ∧ ∃ b Rs D tmp rest, ops = (Op.series b Rs, D, tmp) :: rest ∧ Rs.length = W.data.length)

theorem rotate_series_arg (W : Wave) (b : Bool) (Rs : List (Quaternion ℝ)) (D tmp : Row ℂ) (h : Rs.length ≠ 1) :
    rotate W (Op.series b Rs).arg D tmp = rotateSeries W Rs D := by
  cases b
  · exact (rotate_list W Rs D tmp h).2
  · exact (rotate_list W Rs D tmp h).1

theorem rotate_single_arg (W : Wave) (b : Bool) (R : Quaternion ℝ) (D tmp : Row ℂ) :
    rotate W (Op.series b [R]).arg D tmp = rotate W (.quat R) D tmp := by
  cases b <;> rfl

/-- A step by one rotor keeps the invariant. -/
theorem const_step {W0 : Wave} {l0 : List (Quaternion ℝ)} {W : Wave} {l : List (Quaternion ℝ)} (h0 : 0 ≤ W0.ellMin)
    (h : Inv W0 l0 W l) (R : Quaternion ℝ) (hR : UnitRotor R) (D tmp : Row ℂ) :
    ∃ l', Inv W0 l0 (rotate W (.quat R) D tmp).1 l' ∧ (l ≠ [] → l'.length = l.length) ∧ (l = [] → l'.length = 1) := by
  have h0' : 0 ≤ W.ellMin := by rw [h.min]; exact h0
  obtain ⟨_, l', h2, _, h3, h4, h5⟩ := frame_const W l h.shaped h0' R D tmp
  exact ⟨l', h.step (constant_rotation W h0' R D tmp).2 h2 (fun _ _ => hR) h5, h3, h4⟩

/-- Once there is one rotor per time, any rotation keeps the invariant. -/
theorem run_full {W0 : Wave} {l0 : List (Quaternion ℝ)} (h0 : 0 ≤ W0.ellMin) (ops : List (Op × Row ℂ × Row ℂ))
    (hu : ∀ o ∈ ops, o.1.unit) (W : Wave) (l : List (Quaternion ℝ)) (h : Inv W0 l0 W l)
    (hl : l.length = W.data.length) (hne : l ≠ [] ∨ ∀ o ∈ ops, ¬ o.1.isConst ∧ ∀ b R, o.1 ≠ .series b [R]) :
    ∃ l', Inv W0 l0 (run W ops) l' ∧ l'.length = W.data.length := by
  induction ops generalizing W l with
  | nil => exact ⟨l, h, hl⟩
  | cons o ops ih =>
    obtain ⟨op, D, tmp⟩ := o
    have h0' : 0 ≤ W.ellMin := by rw [h.min]; exact h0
    have hstep : ∃ l', Inv W0 l0 (rotate W op.arg D tmp).1 l' ∧
        l'.length = (rotate W op.arg D tmp).1.data.length ∧ (rotate W op.arg D tmp).1.data.length = W.data.length := by
      cases op with
      | const R =>
        have hne : l ≠ [] := by
          rcases hne with hne | hne
          · exact hne
          · exact absurd trivial (hne (.const R, D, tmp) (by simp)).1
        obtain ⟨l', hi, h1, _⟩ := const_step h0 h R (hu (.const R, D, tmp) (by simp)) D tmp
        refine ⟨l', hi, ?_, hi.len.trans h.len.symm⟩
        rw [h1 hne, hl]; exact h.len.trans hi.len.symm
      | series b Rs =>
        by_cases h1 : Rs.length = 1
        · obtain ⟨R, rfl⟩ := List.length_eq_one_iff.mp h1
          have hne : l ≠ [] := by
            rcases hne with hne | hne
            · exact hne
            · exact absurd rfl ((hne (.series b [R], D, tmp) (by simp)).2 b R)
          rw [rotate_single_arg]
          obtain ⟨l', hi, h1, _⟩ := const_step h0 h R (hu (.series b [R], D, tmp) (by simp) R (by simp)) D tmp
          refine ⟨l', hi, ?_, hi.len.trans h.len.symm⟩
          rw [h1 hne, hl]; exact h.len.trans hi.len.symm
        · rw [rotate_series_arg W b Rs D tmp h1]
          by_cases hlen : Rs.length = W.data.length
          · obtain ⟨_, h2, l', h3, h4, h5⟩ := series_ok W l h.shaped h0' Rs D hlen h1 (by omega)
            refine ⟨l', h.step h2 h3 (fun i _ => unit_frameOf (hu (.series b Rs, D, tmp) (by simp)) i) h5, ?_, h2.2.2.1⟩
            rw [h4]; exact h2.2.2.1.symm
          · rw [series_wrong_length W Rs D hlen]
            exact ⟨l, h, hl, rfl⟩
    obtain ⟨l', hi, hl', hlen⟩ := hstep
    obtain ⟨l'', h1, h2⟩ := ih (fun o ho => hu o (by simp [ho])) _ l' hi hl' (by
      rcases hne with hne | hne
      · left
        intro hnil
        apply hne
        rw [← List.length_eq_zero_iff] at hnil ⊢
        omega
      · right; exact fun o ho => hne o (by simp [ho]))
    exact ⟨l'', h1, by rw [h2, hlen]⟩

theorem run_const {W0 : Wave} {l0 : List (Quaternion ℝ)} (h0 : 0 ≤ W0.ellMin) (ops : List (Op × Row ℂ × Row ℂ))
    (hu : ∀ o ∈ ops, o.1.unit) (hc : ∀ o ∈ ops, o.1.isConst) (W : Wave) (l : List (Quaternion ℝ))
    (h : Inv W0 l0 W l) : ∃ l', Inv W0 l0 (run W ops) l' := by
  induction ops generalizing W l with
  | nil => exact ⟨l, h⟩
  | cons o ops ih =>
    obtain ⟨op, D, tmp⟩ := o
    cases op with
    | const R =>
      obtain ⟨l', hi, _, _⟩ := const_step h0 h R (hu (.const R, D, tmp) (by simp)) D tmp
      exact ih (fun o ho => hu o (by simp [ho])) (fun o ho => hc o (by simp [ho])) _ l' hi
    | series b Rs => exact absurd (hc (.series b Rs, D, tmp) (by simp)) (by simp [Op.isConst])

theorem run_single {W0 : Wave} {l0 : List (Quaternion ℝ)} (h0 : 0 ≤ W0.ellMin) (h1 : W0.data.length = 1)
    (ops : List (Op × Row ℂ × Row ℂ))
    (hu : ∀ o ∈ ops, o.1.unit) (W : Wave) (l : List (Quaternion ℝ))
    (h : Inv W0 l0 W l) : ∃ l', Inv W0 l0 (run W ops) l' := by
  induction ops generalizing W l with
  | nil => exact ⟨l, h⟩
  | cons o ops ih =>
    obtain ⟨op, D, tmp⟩ := o
    have hstep : ∃ l', Inv W0 l0 (rotate W op.arg D tmp).1 l' := by
      cases op with
      | const R =>
        obtain ⟨l', hi, _, _⟩ := const_step h0 h R (hu (.const R, D, tmp) (by simp)) D tmp
        exact ⟨l', hi⟩
      | series b Rs =>
        by_cases hR : Rs.length = 1
        · obtain ⟨R, rfl⟩ := List.length_eq_one_iff.mp hR
          rw [rotate_single_arg]
          obtain ⟨l', hi, _, _⟩ := const_step h0 h R (hu (.series b [R], D, tmp) (by simp) R (by simp)) D tmp
          exact ⟨l', hi⟩
        · rw [rotate_series_arg W b Rs D tmp hR, series_wrong_length W Rs D (by rw [h.len, h1]; exact hR)]
          exact ⟨l, h⟩
    obtain ⟨l', hi⟩ := hstep
    exact ih (fun o ho => hu o (by simp [ho])) _ l' hi

/-- **C12** (partial): after any covered history of constant and time-series rotations by unit rotors, the
modes expressed back in the inertial frame with the stored frame are the original ones.  Missing: a
series of two or more rotors applied while a single rotor is stored, after which the stored frame is a
matrix (see `inertial_fails_after_const_then_series`). -/
theorem inertial_invariant_partial (W : Wave) (l : List (Quaternion ℝ)) (hs : Shaped W l) (h0 : 0 ≤ W.ellMin)
    (hn : 1 ≤ W.data.length)
    (hu : ∀ R ∈ l, UnitRotor R) (ops : List (Op × Row ℂ × Row ℂ)) (hops : ∀ o ∈ ops, o.1.unit)
    (hc : Covered W l ops) :
    ∃ l', Shaped (run W ops) l' ∧ (run W ops).data.length = W.data.length ∧
      (∀ i, i < W.data.length → UnitRotor (frameOf l' i)) ∧
      ∀ i ell m, HasMode W i ell m → HasMode (run W ops) i ell m ∧
        inertial (run W ops) l' i ell m = inertial W l i ell m := by
  have hi := Inv.refl W l hs (fun i _ => unit_frameOf hu i)
  have key : ∃ l', Inv W l (run W ops) l' := by
    rcases hc with h1 | hc | hl | ⟨rfl, b, Rs, D, tmp, rest, rfl, hR⟩
    · exact run_single h0 h1 ops hops W l hi
    · exact run_const h0 ops hops hc W l hi
    · obtain ⟨l', h, _⟩ := run_full h0 ops hops W l hi hl (Or.inl (by
        intro h; rw [h] at hl; simp at hl; omega))
      exact ⟨l', h⟩
    · by_cases h1 : Rs.length = 1
      · exact run_single h0 (by omega) _ hops W [] hi
      · obtain ⟨_, h2, l', h3, h4, h5⟩ := series_ok W [] hs h0 Rs D hR h1 (by simp)
        have hstep := hi.step h2 h3 (fun i _ => unit_frameOf (hops (.series b Rs, D, tmp) (by simp)) i) h5
        have hlen' := h2.2.2.1
        rw [← rotate_series_arg W b Rs D tmp h1] at hstep hlen'
        obtain ⟨l'', h6, _⟩ := run_full h0 rest (fun o ho => hops o (by simp [ho])) _ l' hstep
          (by rw [h4]; exact hlen'.symm) (Or.inl (by
            intro h; rw [h] at h4; simp at h4; omega))
        exact ⟨l'', h6⟩
  obtain ⟨l', h⟩ := key
  refine ⟨l', h.shaped, h.len, fun i hi => h.units i (by rw [h.len]; exact hi), ?_⟩
  intro i ell m hm
  refine ⟨?_, h.modes i ell m hm⟩
  unfold HasMode at hm ⊢
  rw [h.len, h.min, h.max]; exact hm

theorem star_frameOf (l : List (Quaternion ℝ)) (i : Nat) : frameOf (l.map star) i = star (frameOf l i) := by
  match l with
  | [] => simp [frameOf]
  | [q] => simp [frameOf]
  | a :: b :: t =>
    rw [frameOf_getD (by simp), frameOf_getD (by simp), List.getD_eq_getElem?_getD, List.getD_eq_getElem?_getD,
      List.getElem?_map]
    cases (a :: b :: t)[i]? <;> simp

/-- `to_inertial_frame` on a waveform whose frame has one of the two non-empty documented shapes: no
exception, the modes become the inertial ones, the frame the identity at every time. -/
theorem to_inertial_frame (W : Wave) (l : List (Quaternion ℝ)) (hs : Shaped W l) (hne : l ≠ []) (h0 : 0 ≤ W.ellMin)
    (hu : ∀ R ∈ l, UnitRotor R) (D tmp : Row ℂ) :
    (toInertial W D tmp).2 = none ∧ (toInertial W D tmp).1.data.length = W.data.length ∧
    (∀ i ell m, HasMode W i ell m → mode (toInertial W D tmp).1 i ell m = inertial W l i ell m) ∧
    ∃ l', Shaped (toInertial W D tmp).1 l' ∧ ∀ i, i < W.data.length → frameOf l' i = 1 := by
  unfold toInertial
  rw [hs.1]
  simp only [QArr.inv]
  by_cases h1 : l.length = 1
  · obtain ⟨q, rfl⟩ := List.length_eq_one_iff.mp h1
    have : rotate W (.arr (.vec (List.map star [q]))) D tmp = rotate W (.quat (star q)) D tmp := rfl
    rw [this]
    obtain ⟨h2, h3⟩ := constant_rotation W h0 (star q) D tmp
    obtain ⟨_, l', h4, _, _, _, h5⟩ := frame_const W [q] hs h0 (star q) D tmp
    refine ⟨h2, h3.2.2.1, fun i ell m hm => h3.2.2.2 i ell m hm, l', h4, ?_⟩
    intro i hi
    rw [h5 i hi]
    exact unit_right (hu q (by simp))
  · have hlen : l.length = W.data.length := by
      rcases hs.2 with h | h | h
      · exact absurd (List.length_eq_zero_iff.mp h) hne
      · exact absurd h h1
      · exact h
    rw [(rotate_list W (l.map star) D tmp (by simpa using h1)).2]
    obtain ⟨h2, h3, l', h4, _, h5⟩ := series_ok W l hs h0 (l.map star) D (by simpa using hlen) (by simpa using h1) h1
    refine ⟨h2, h3.2.2.1, ?_, l', h4, ?_⟩
    · intro i ell m hm
      rw [h3.2.2.2 i ell m hm, star_frameOf]; rfl
    · intro i hi
      rw [h5 i hi, star_frameOf]
      exact unit_right (unit_frameOf hu i)

/-- Two frame arrays of the same documented shape have the same members if they give the same rotors. -/
theorem units_of_frameOf {W : Wave} {l : List (Quaternion ℝ)} (hs : Shaped W l) (hn : 1 ≤ W.data.length)
    (h : ∀ i, i < W.data.length → UnitRotor (frameOf l i)) : ∀ R ∈ l, UnitRotor R := by
  intro R hR
  by_cases h1 : l.length = 1
  · obtain ⟨q, rfl⟩ := List.length_eq_one_iff.mp h1
    simp at hR; subst hR
    exact h 0 (by omega)
  · obtain ⟨k, hk, rfl⟩ := List.mem_iff_getElem.mp hR
    have := h k (by
      rcases hs.2 with h' | h' | h'
      · omega
      · omega
      · omega)
    rw [frameOf_getD h1, List.getD_eq_getElem?_getD, List.getElem?_eq_getElem hk] at this
    exact this

/-- **C12** (partial): `to_inertial_frame` undoes every covered history after which a frame is stored: the
modes are the original inertial ones, and every frame rotor is the identity. -/
theorem to_inertial_undoes_partial (W : Wave) (l : List (Quaternion ℝ)) (hs : Shaped W l) (h0 : 0 ≤ W.ellMin)
    (hn : 1 ≤ W.data.length) (hu : ∀ R ∈ l, UnitRotor R) (ops : List (Op × Row ℂ × Row ℂ))
    (hops : ∀ o ∈ ops, o.1.unit) (hc : Covered W l ops) (hne : (run W ops).frame ≠ .vec []) (D tmp : Row ℂ) :
    (toInertial (run W ops) D tmp).2 = none ∧
    (∀ i ell m, HasMode W i ell m → mode (toInertial (run W ops) D tmp).1 i ell m = inertial W l i ell m) ∧
    ∃ l', Shaped (toInertial (run W ops) D tmp).1 l' ∧ ∀ i, i < W.data.length → frameOf l' i = 1 := by
  obtain ⟨l', h1, h2, h3, h4⟩ := inertial_invariant_partial W l hs h0 hn hu ops hops hc
  have h0' : 0 ≤ (run W ops).ellMin := by
    by_contra hneg
    have key : ∀ (ops : List (Op × Row ℂ × Row ℂ)) (W : Wave), (run W ops).ellMin = W.ellMin := by
      intro ops
      induction ops with
      | nil => intro W; rfl
      | cons o ops ih =>
        intro W
        obtain ⟨op, D, tmp⟩ := o
        simp only [run]
        rw [ih]
        have hs : ∀ Rs, (rotateSeries W Rs D).1.ellMin = W.ellMin := by
          intro Rs
          unfold rotateSeries
          split
          · rfl
          · simp only
            split <;> rfl
        have hq : ∀ q, (rotateConst W q D tmp).1.ellMin = W.ellMin := by
          intro q
          unfold rotateConst
          simp only
          split <;> rfl
        unfold rotate
        split
        · exact hs _
        · exact hs _
        · rfl
        · exact hq _
        · rfl
    rw [key] at hneg
    exact hneg h0
  have hne' : l' ≠ [] := by rintro rfl; exact hne h1.1
  obtain ⟨g1, g2, g3, l'', g4, g5⟩ := to_inertial_frame (run W ops) l' h1 hne' h0'
    (units_of_frameOf h1 (by omega) (by rw [h2]; exact h3)) D tmp
  refine ⟨g1, ?_, l'', g4, ?_⟩
  · intro i ell m hm
    obtain ⟨h5, h6⟩ := h4 i ell m hm
    rw [g3 i ell m h5, h6]
  · intro i hi; exact g5 i (by omega)

/-- The full claim is false: for every waveform of two or more times without a frame, and all rotors, one
constant rotation followed by one series rotation leaves a waveform on which `to_inertial_frame` raises
`IndexError`, and which therefore keeps its rotated data. -/
theorem inertial_fails_after_const_then_series (W : Wave) (hF : W.frame = .vec []) (h2 : 2 ≤ W.data.length)
    (R : Quaternion ℝ) (Rs : List (Quaternion ℝ)) (hR : Rs.length = W.data.length) (b : Bool)
    (D1 tmp1 D2 tmp2 D tmp : Row ℂ) :
    let V := run W [(.const R, D1, tmp1), (.series b Rs, D2, tmp2)]
    toInertial V D tmp = (V, some .indexError) := by
  intro V
  have hV : V = (rotate (rotate W (.quat R) D1 tmp1).1 (.arr (.vec Rs)) D2 tmp2).1 := by
    show (rotate (rotate W (.quat R) D1 tmp1).1 (Op.series b Rs).arg D2 tmp2).1 = _
    rw [rotate_series_arg _ _ _ _ _ (by omega), (rotate_list _ _ _ _ (by omega)).2]
  have hf := constant_frame W [] hF R D1 tmp1
  rw [if_pos rfl] at hf
  have hlen : (rotate W (.quat R) D1 tmp1).1.data.length = W.data.length := by
    unfold rotate unwrap
    simp only
    unfold rotateConst
    simp only
    split <;> exact byConstant_length _ _ _ _ _
  obtain ⟨_, h4, _⟩ := one_rotor_frame_then_series _ R hf Rs (by rw [hlen, hR]) (by omega) D2 tmp2
  unfold toInertial
  have h4' : V.frame = .mat (Rs.map fun S => [R * S]) := by rw [hV]; exact h4
  rw [h4']
  apply matrix_argument
  simp; omega

/-- `to_inertial_frame` refuses every waveform that has times but no frame, although its data are then
already inertial. -/
theorem to_inertial_without_frame (W : Wave) (hF : W.frame = .vec []) (hn : 1 ≤ W.data.length) (D tmp : Row ℂ) :
    toInertial W D tmp = (W, some .valueError) := by
  unfold toInertial
  rw [hF]
  exact series_wrong_length W [] D (by simp; omega)

/-- `rotate_physical_system` by `R` is `rotate_decomposition_basis` by the inverse. -/
theorem rotate_physical (W : Wave) (h0 : 0 ≤ W.ellMin) (R : Quaternion ℝ) (hR : UnitRotor R) (D tmp D' tmp' : Row ℂ) :
    (rotatePhysical W (.quat R) D tmp).2 = none ∧ Rotated (rotatePhysical W (.quat R) D tmp).1 W (fun _ => R⁻¹) ∧
    SameModes (rotate (rotatePhysical W (.quat R) D tmp).1 (.quat R) D' tmp').1 W := by
  rw [unit_inv hR]
  have h1 := constant_rotation W h0 (star R) D tmp
  have h0' : 0 ≤ (rotate W (.quat (star R)) D tmp).1.ellMin := by rw [h1.2.1]; exact h0
  have h3 := h1.2.trans (constant_rotation _ h0' R D' tmp').2
  refine ⟨h1.1, h1.2, h3.1, h3.2.1, h3.2.2.1, ?_⟩
  intro i ell m hm
  have := h3.2.2.2 i ell m hm
  rw [unit_left hR, rot_one ell _ m hm.2.2.2] at this
  exact this

/-- The hypotheses of the C12 theorems are met: two times, a series and then a constant rotation. -/
example : ∃ (W : Wave) (ops : List (Op × Row ℂ × Row ℂ)), Shaped W [] ∧ 0 ≤ W.ellMin ∧ 1 ≤ W.data.length ∧
    (∀ o ∈ ops, o.1.unit) ∧ Covered W [] ops ∧ ops.length = 2 := by
  have hu := qi_unit
  refine ⟨⟨2, 8, [fun _ => 1, fun _ => 2], .vec []⟩,
    [(.series true [1, qi], fun _ => 0, fun _ => 0), (.const qi, fun _ => 0, fun _ => 0)],
    ⟨rfl, by simp⟩, by simp, by simp, ?_, ?_, rfl⟩
  · intro o ho
    simp only [List.mem_cons, List.not_mem_nil, or_false] at ho
    rcases ho with rfl | rfl
    · intro R hR
      simp only [List.mem_cons, List.not_mem_nil, or_false] at hR
      rcases hR with rfl | rfl
      · exact unit_one
      · exact hu
    · exact hu
  · right; right; right
    exact ⟨rfl, true, _, _, _, _, rfl, rfl⟩

end Verif.Props.Rotation
