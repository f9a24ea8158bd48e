import Verif.Lemmas.AbdRotated

/-!
# A time translation and a rotation, then any transformation (C97)

`AsymptoticBondiData.transform` of rotated and time-translated data, for every boost velocity and every supertranslation: it is one transformation of the data themselves.
-/

namespace Verif.Props.AbdCovariant

open Verif Verif.Modes Verif.AbdModes Verif.AbdModes.Spec Verif.TransformKwargs Verif.AbdTransform Verif.Lemmas.AbdRotated
open Verif.GridModes (vec3 vDotR zhat)
open Verif.GridModes.Spec (Exact TimeAndRotation dir superModes)
open Verif.GridMultiply (Y rect)
open Verif.GridMultiply.Spec (expansion)
open Verif.Spec.Rotation (rot UnitRotor)
open Verif.Props.FluxCovariance (star_mul_unit mul_star_unit dir_rotated)
open Verif.Props.AbdTransform (rotateVec_mul vecQuat_rotateVec)
open Verif.Props.AbdModes (alphaModes_eq evaluate_eq)
open Verif.Props.GridModes (dot_eq)
open Verif.Props.BoostFlux (rot_smul)

/-- `r` is the time translation by `tau` and the rotation by `Q`, and then the transformation `r'`: the rotations are multiplied, the boost velocity is that of `r'`, which refers to the rotated frame, and likewise the supertranslation, to
which the time translation is added. -/
structure Follows (tau : ℝ) (Q : Quaternion ℝ) (r r' : Result) : Prop where
  rotation : r.frame_rotation = Q * r'.frame_rotation
  velocity : vec3 r.boost_velocity = rotateVec Q (vec3 r'.boost_velocity)
  super : ∀ ell m : Int, 0 ≤ ell → ell ≤ r.ellMaxSuper → -ell ≤ m → m ≤ ell →
    superModes r'.supertranslation ell m = rot ell Q (superModes r.supertranslation ell) m - if ell = 0 then constantAs tau else 0
  ellMaxSuper : r'.ellMaxSuper = r.ellMaxSuper
  working : r'.working_ell_max = r.working_ell_max
  output : r'.output_ell_max = r.output_ell_max

/-- The distorted grid is the rotated one. -/
theorem boostedGrid_turned {tau : ℝ} {Q : Quaternion ℝ} (hQ : UnitRotor Q) {r r' : Result} (h : Follows tau Q r r') (n : Nat) : boostedGrid r n = (boostedGrid r' n).map (Q * ·) := by
  unfold boostedGrid
  rw [List.map_map]
  refine List.map_congr_left fun x _ => ?_
  have e : star Q * (Q * (r'.frame_rotation * x)) = r'.frame_rotation * x := by rw [← mul_assoc, star_mul_unit hQ, one_mul]
  simp only [Function.comp]
  rw [h.rotation, h.velocity, vabs_rotated hQ, div_rotated, mul_assoc Q, rotateVec_mul Q, Bprm_rotated hQ, mul_assoc (Q * _), e, mul_assoc]

/-- The same values in all directions, with the supertranslation shifted. -/
def shifted (tau : ℝ) (d : Dir) : Dir := { d with alpha := d.alpha + tau }

theorem alphaModes_turned {L L' : Int} {kw kw' : Kw} {tau : ℝ} {Q : Quaternion ℝ} {r r' : Result} (hr : process L kw = .ok r) (hr' : process L' kw' = .ok r') (h : Follows tau Q r r')
    (ell m : Int) (h0 : 0 ≤ ell) (h1 : ell ≤ r.ellMaxSuper) (h2 : -ell ≤ m) (h3 : m ≤ ell) :
    alphaModes r' ell m = rot ell Q (alphaModes r ell) m - if ell = 0 then constantAs tau else 0 := by
  rw [alphaModes_eq hr' ell m h0 (by rw [h.ellMaxSuper]; exact h1) (abs_le.mpr ⟨h2, h3⟩), h.super ell m h0 h1 h2 h3]
  congr 1
  exact Verif.Rotation.rot_congr ell Q _ _ m fun k hk => (alphaModes_eq hr ell k h0 h1 (abs_le.mpr hk)).symm

theorem alpha0_turned {L L' : Int} {kw kw' : Kw} {tau : ℝ} {Q : Quaternion ℝ} {r r' : Result} (hr : process L kw = .ok r) (hr' : process L' kw' = .ok r') (h : Follows tau Q r r') (h0 : 0 ≤ r.ellMaxSuper) :
    alpha0 r' = alpha0 r - tau := by
  have e := Verif.Props.GridModes.constantFrom_as tau
  unfold alpha0
  rw [alphaModes_turned hr hr' h 0 0 le_rfl h0 le_rfl le_rfl, if_pos rfl, rot_degree_zero]
  unfold constantFrom at e ⊢
  rw [sub_div, Complex.sub_re, e]

theorem expansion_constant (L : Int) (h0 : 0 ≤ L) (tau : ℝ) (R : Quaternion ℝ) : (expansion 0 L (fun ell _ => if ell = 0 then constantAs tau else 0) R).re = tau := by
  have e : expansion 0 L (fun ell _ => if ell = 0 then constantAs tau else 0) R = constantAs tau * Y 0 0 0 R := by
    unfold expansion
    rw [Finset.sum_eq_single 0]
    · simp
    · intro ell _ g
      exact Finset.sum_eq_zero fun m _ => by simp only [if_neg g, zero_mul]
    · intro g
      exact absurd (Finset.mem_Icc.mpr ⟨le_rfl, h0⟩) g
  rw [e, Verif.Props.GridModes.constant_value]

theorem value_turned {a a' : Abd} (ha : Good a) {tau : ℝ} {Q : Quaternion ℝ} (ht : Transformed a' a tau Q) (hL : a'.ellMax = a.ellMax) (R : Quaternion ℝ) (c : Fin 6) (i : Nat) :
    evaluate a (Q * R) c i = evaluate a' R c i := by
  rw [evaluate_eq, evaluate_eq]
  unfold value
  rw [hL]
  refine expansion_turned (fun ell m h1 h2 h3 h4 => ?_) R
  by_cases hi : i < a.t.length
  · rw [(ht.2 c).2 i hi ell m h1 (by omega) h3 h4, if_pos h2]
  · have e : mode a c i ell = fun _ => 0 := by
      funext k
      unfold mode
      rw [List.getD_eq_default _ _ (by rw [ha.rows]; omega)]
    have e' : mode a' c i ell m = 0 := by
      unfold mode
      rw [List.getD_eq_default _ _ (by rw [(ht.2 c).1]; omega)]
    rw [e, e', Verif.Props.GridModes.rot_zero]

theorem dirAt_turned {a a' : Abd} (ha : Good a) {kw kw' : Kw} {tau : ℝ} {Q : Quaternion ℝ} (hQ : UnitRotor Q) (ht : Transformed a' a tau Q) (hL : a'.ellMax = a.ellMax) {r r' : Result}
    (hr : process a.ellMax kw = .ok r) (hr' : process a'.ellMax kw' = .ok r') (h : Follows tau Q r r') (h0 : 0 ≤ r.ellMaxSuper) (R : Quaternion ℝ) :
    dirAt a r (Q * R) = shifted tau (dirAt a' r' R) := by
  have hA := fun ell m => alphaModes_turned hr hr' h ell m
  have k1 : ∀ ell m : Int, 1 ≤ ell → ell ≤ r.ellMaxSuper → -ell ≤ m → m ≤ ell → alphaModes r' ell m = rot ell Q (alphaModes r ell) m := by
    intro ell m g1 g2 g3 g4
    rw [hA ell m (by omega) g2 g3 g4, if_neg (by omega), sub_zero]
  have k2 : ∀ ell m : Int, 1 ≤ ell → ell ≤ r.ellMaxSuper → -ell ≤ m → m ≤ ell → ethNP 0 (alphaModes r') ell m = rot ell Q (ethNP 0 (alphaModes r) ell) m := by
    intro ell m g1 g2 g3 g4
    unfold ethNP
    rw [rot_smul, k1 ell m g1 g2 g3 g4]
  have e1 : ∑ i, vec3 r.boost_velocity i * rotateVec (Q * R) zhat i = ∑ i, vec3 r'.boost_velocity i * rotateVec R zhat i := by
    rw [h.velocity]
    exact dir_rotated hQ _ R
  have e2 : expansion 1 1 (vDotR (vec3 r.boost_velocity)) (Q * R) = expansion 1 1 (vDotR (vec3 r'.boost_velocity)) R := by
    rw [h.velocity]
    exact vDotR_turned hQ _ R
  have e3 : (expansion 0 r.ellMaxSuper (alphaModes r) (Q * R)).re = (expansion 0 r.ellMaxSuper (alphaModes r') R).re + tau := by
    have e : expansion 0 r.ellMaxSuper (alphaModes r) (Q * R) = expansion 0 r.ellMaxSuper (fun ell m => alphaModes r' ell m + if ell = 0 then constantAs tau else 0) R := by
      refine expansion_turned (fun ell m g1 g2 g3 g4 => ?_) R
      rw [hA ell m (by simpa using g1) g2 g3 g4, sub_add_cancel]
    have e' : expansion 0 r.ellMaxSuper (fun ell m => alphaModes r' ell m + if ell = 0 then constantAs tau else 0) R =
        expansion 0 r.ellMaxSuper (alphaModes r') R + expansion 0 r.ellMaxSuper (fun ell _ => if ell = 0 then constantAs tau else 0) R := by
      unfold expansion
      simp only [add_mul, Finset.sum_add_distrib]
    rw [e, e', Complex.add_re, expansion_constant _ h0 tau R]
  have e4 : expansion 1 r.ellMaxSuper (ethNP 0 (alphaModes r)) (Q * R) = expansion 1 r.ellMaxSuper (ethNP 0 (alphaModes r')) R :=
    expansion_turned (fun ell m g1 g2 g3 g4 => k2 ell m (by simpa using g1) g2 g3 g4) R
  have e5 : expansion 2 r.ellMaxSuper (ethNP 1 (ethNP 0 (alphaModes r))) (Q * R) = expansion 2 r.ellMaxSuper (ethNP 1 (ethNP 0 (alphaModes r'))) R := by
    refine expansion_turned (fun ell m g1 g2 g3 g4 => ?_) R
    have g : (2 : Int) ≤ ell := by simpa using g1
    rw [show ethNP 1 (ethNP 0 (alphaModes r')) ell m = _ * ethNP 0 (alphaModes r') ell m from rfl, k2 ell m (by omega) g2 g3 g4, ← rot_smul]
    rfl
  have e6 : ∀ c, evaluate a (Q * R) c = evaluate a' R c := fun c => funext fun i => value_turned ha ht hL R c i
  unfold dirAt shifted
  simp only [dot_eq, h.ellMaxSuper, e1, e2, e3, e4, e5, e6]

/-! ## Between the grid and the modes -/

theorem kFactor_shifted (g tau : ℝ) (d : Dir) : kFactor g (shifted tau d) = kFactor g d := rfl

theorem fprime_shifted (g tau : ℝ) (d : Dir) (i : Nat) (u : ℝ) : fprime g (shifted tau d) i u = fprime g d i (u - tau) := by
  have e : ethUprime (shifted tau d) u = ethUprime d (u - tau) := by
    unfold ethUprime
    have : u - (shifted tau d).alpha = u - tau - d.alpha := by
      show u - (d.alpha + tau) = _
      ring
    rw [this]
    rfl
  unfold fprime
  rw [e]
  rfl

theorem slices_shifted (g alpha0 tau : ℝ) (u : List ℝ) (dirs : List Dir) : slices g alpha0 u (dirs.map (shifted tau)) = slices g (alpha0 - tau) (u.map (· - tau)) dirs := by
  have e1 : (u.map (· - tau)).map (fun u => (u - (alpha0 - tau)) / g) = u.map fun u => (u - alpha0) / g := by
    rw [List.map_map]
    refine List.map_congr_left fun x _ => ?_
    simp only [Function.comp]
    congr 1
    ring
  have e2 : ∀ x : ℝ, (dirs.map (shifted tau)).map (fun d => kFactor g d * (x - d.alpha)) = dirs.map fun d => kFactor g d * (x - tau - d.alpha) := by
    intro x
    rw [List.map_map]
    refine List.map_congr_left fun d _ => ?_
    simp only [Function.comp, kFactor_shifted]
    congr 1
    show x - (d.alpha + tau) = _
    ring
  unfold slices
  simp only [e1, e2]
  by_cases hu : u = []
  · subst hu
    rfl
  · have hu' : u.map (· - tau) ≠ [] := by simpa using hu
    rw [Props.AbdTransform.pyGet_first u hu, Props.AbdTransform.pyGet_last u hu, Props.AbdTransform.pyGet_first _ hu', Props.AbdTransform.pyGet_last _ hu']
    simp only [ok_bind, List.head_map, List.getLast_map]

theorem interpolated_shifted (spline : List (ℝ × ℂ) → ℝ → ℂ) (g tau : ℝ) (u ts : List ℝ) (d : Dir) : interpolated spline g u ts (shifted tau d) = interpolated spline g (u.map (· - tau)) ts d := by
  have e : ∀ c : Nat, (u.zipIdx.map fun p => (kFactor g (shifted tau d) * (p.1 - (shifted tau d).alpha), (fprime g (shifted tau d) p.2 p.1).getD c 0)) =
      (u.map (· - tau)).zipIdx.map fun p => (kFactor g d * (p.1 - d.alpha), (fprime g d p.2 p.1).getD c 0) := by
    intro c
    rw [List.zipIdx_map, List.map_map]
    refine List.map_congr_left fun p _ => ?_
    simp only [Function.comp, Prod.map, id, kFactor_shifted, fprime_shifted]
    have : p.1 - (shifted tau d).alpha = p.1 - tau - d.alpha := by
      show p.1 - (d.alpha + tau) = _
      ring
    rw [this]
  unfold interpolated
  simp only [e]

theorem transform_shifted (spline : List (ℝ × ℂ) → ℝ → ℂ) (beta alpha0 tau : ℝ) (u : List ℝ) (dirs : List Dir) :
    AbdTransform.transform spline beta alpha0 u (dirs.map (shifted tau)) = AbdTransform.transform spline beta (alpha0 - tau) (u.map (· - tau)) dirs := by
  unfold AbdTransform.transform
  rw [slices_shifted]
  simp only [List.map_map]
  congr 1
  funext ts
  congr 2
  exact List.map_congr_left fun d _ => interpolated_shifted spline _ tau u ts d

theorem ellMaxSuper_pos {L : Int} {kw : Kw} {r : Result} (h : process L kw = .ok r) : 1 ≤ r.ellMaxSuper := by
  obtain ⟨row, e, -⟩ := Props.TransformKwargs.process_ok h
  exact (Props.TransformKwargs.superInput_ok e).1

/-- **C97**: the transformation `r'` of data that are rotated and translated in time is the transformation `r` of the data themselves, for every velocity, rotation and supertranslation, every interpolation and every map back to modes. -/
theorem covariant (spline : List (ℝ × ℂ) → ℝ → ℂ) (map2salm : List ℂ → Nat → Nat → Int → Int → Row ℂ) {a a' : Abd} (ha : Good a) {tau : ℝ} {Q : Quaternion ℝ} (hQ : UnitRotor Q)
    (ht : Transformed a' a tau Q) (hL : a'.ellMax = a.ellMax) {kw kw' : Kw} {r r' : Result} (hr : process a.ellMax kw = .ok r) (hr' : process a.ellMax kw' = .ok r') (h : Follows tau Q r r') :
    Verif.AbdModes.transform spline map2salm a' kw' = Verif.AbdModes.transform spline map2salm a kw := by
  have h0 := ellMaxSuper_pos hr
  have hr2 : process a'.ellMax kw' = .ok r' := by rw [hL]; exact hr'
  have hd : ∀ n, (boostedGrid r n).map (dirAt a r) = ((boostedGrid r' n).map (dirAt a' r')).map (shifted tau) := by
    intro n
    rw [boostedGrid_turned hQ h, List.map_map, List.map_map]
    exact List.map_congr_left fun R _ => dirAt_turned ha hQ ht hL hr hr2 h (by omega) R
  have hg := Props.AbdModes.Transformed.good ha ht hL
  unfold Verif.AbdModes.transform
  rw [hr, hr2, ok_bind, ok_bind]
  simp only
  rw [hd, transform_shifted, h.velocity, vabs_rotated hQ, ← alpha0_turned hr hr' h (by omega), ← ht.1, h.working, h.output]
  have c1 : ¬ (a.t.length < 2 ∨ ¬ a.t.Pairwise (· < ·)) := by
    push Not
    exact ⟨ha.times, ha.increasing⟩
  have c2 : ¬ (a'.t.length < 2 ∨ ¬ a'.t.Pairwise (· < ·)) := by
    push Not
    exact ⟨hg.times, hg.increasing⟩
  simp only [if_neg c1, if_neg c2]

/-! ## Every transformation can be divided like this -/

open Verif.Props.TransformKwargs (IsReal)
open Verif.Bms (components)
open ComplexConjugate

/-- The items of an array of modes. -/
noncomputable def items (L : Int) (f : Int → Int → ℂ) : List ℂ := (List.range ((L + 1) ^ 2).toNat).map fun n => f (Nat.sqrt n) (n - (Nat.sqrt n : Int) * (Nat.sqrt n + 1))

theorem items_length (L : Int) (f : Int → Int → ℂ) : ((items L f).length : Int) = (L + 1) ^ 2 := by
  unfold items
  rw [List.length_map, List.length_range, Int.toNat_of_nonneg (by positivity)]

theorem items_spec {L : Int} (f : Int → Int → ℂ) {ell m : Int} (h0 : 0 ≤ ell) (h1 : ell ≤ L) (h2 : -ell ≤ m) (h3 : m ≤ ell) : toRow (items L f) (lmIndex ell m 0) = f ell m := by
  have e : lmIndex ell m 0 = ell * (ell + 1) + m := by
    unfold lmIndex
    ring
  have hn : (0 : Int) ≤ lmIndex ell m 0 := by
    rw [e]
    nlinarith
  have hlt : lmIndex ell m 0 < (L + 1) ^ 2 := by
    rw [e]
    nlinarith
  obtain ⟨n, hn'⟩ := Int.eq_ofNat_of_zero_le hn
  obtain ⟨k, rfl⟩ := Int.eq_ofNat_of_zero_le h0
  obtain ⟨j, hj⟩ := Int.eq_ofNat_of_zero_le (show 0 ≤ (k : Int) + m by omega)
  have hs : Nat.sqrt n = k := by
    have : n = k * k + j := by
      have : (n : Int) = k * k + j := by
        rw [← hn', e]
        linear_combination hj
      exact_mod_cast this
    rw [this]
    exact Nat.sqrt_add_eq k (by omega)
  unfold toRow items
  rw [if_pos hn, hn', Int.toNat_natCast, List.getD_eq_getElem?_getD, List.getElem?_map, List.getElem?_range (by omega)]
  simp only [Option.map_some, Option.getD_some, hs]
  congr 1
  rw [← hn', e]
  ring

/-- The modes of a rotated real function are those of a real function. -/
theorem rot_real (ell : Int) (Q : Quaternion ℝ) (f : Int → ℂ) (hf : ∀ m : Int, -ell ≤ m → m ≤ ell → f (-m) = (-1) ^ m.natAbs * conj (f m)) (m : Int) (h1 : -ell ≤ m) (h2 : m ≤ ell) :
    rot ell Q f (-m) = (-1) ^ m.natAbs * conj (rot ell Q f m) := by
  unfold rot
  rw [map_sum, Finset.mul_sum]
  refine Finset.sum_bij' (fun k _ => -k) (fun k _ => -k) ?_ ?_ ?_ ?_ ?_
  · intro k hk
    rw [Finset.mem_Icc] at hk ⊢
    omega
  · intro k hk
    rw [Finset.mem_Icc] at hk ⊢
    omega
  · simp
  · simp
  · intro k hk
    rw [Finset.mem_Icc] at hk
    have e := hf (-k) (by omega) (by omega)
    rw [neg_neg, Int.natAbs_neg] at e
    rw [map_mul, Verif.Wigner.Dlm_conj ell Q (-k) m (abs_le.mpr ⟨by omega, by omega⟩) (abs_le.mpr ⟨h1, h2⟩), e, neg_neg]
    have hsg : ((-1 : ℂ)) ^ k.natAbs = (-1) ^ m.natAbs * (-1) ^ (-k + m).natAbs := by
      rw [← pow_add]
      rcases Nat.even_or_odd k.natAbs with h | h
      · have h' : Even (m.natAbs + (-k + m).natAbs) := by
          rw [Nat.even_iff] at h ⊢
          omega
        rw [h.neg_one_pow, h'.neg_one_pow]
      · have h' : Odd (m.natAbs + (-k + m).natAbs) := by
          rw [Nat.odd_iff] at h ⊢
          omega
        rw [h.neg_one_pow, h'.neg_one_pow]
    rw [hsg]
    ring

/-- Keywords with the given rotation, velocity, supertranslation and options. -/
noncomputable def keywords (R : Quaternion ℝ) (v : Fin 3 → ℝ) (L : Int) (f : Int → Int → ℂ) (working output : Int) : Kw :=
  { supertranslation := some (items L f), working_ell_max := some working, output_ell_max := some output, frame_rotation := some (components R), boost_velocity := some (List.ofFn v) }

theorem process_keywords (n : Int) {R : Quaternion ℝ} (hR : UnitRotor R) {v : Fin 3 → ℝ} (hv : ∑ i, v i * v i < 1) {L : Int} (hL : 1 ≤ L) {f : Int → Int → ℂ}
    (hf : ∀ ell m : Int, 0 ≤ ell → ell ≤ L → -ell ≤ m → m ≤ ell → f ell (-m) = (-1) ^ m.natAbs * conj (f ell m)) {working output : Int} (hw : n ≤ working) :
    ∃ r, process n (keywords R v L f working output) = .ok r ∧ r.frame_rotation = R ∧ vec3 r.boost_velocity = v ∧ r.ellMaxSuper = L ∧ r.working_ell_max = working ∧ r.output_ell_max = output ∧
      ∀ ell m : Int, 0 ≤ ell → ell ≤ L → -ell ≤ m → m ≤ ell → superModes r.supertranslation ell m = f ell m := by
  have e1 : ellMaxOf (pad (items L f)) = .ok L := by
    rw [Props.TransformKwargs.ellMaxOf_spec _ _ (by omega), Props.TransformKwargs.pad_length]
    have := items_length L f
    have : (4 : Int) ≤ (items L f).length := by
      rw [this]
      nlinarith
    rw [Nat.max_eq_right (by omega)]
    exact items_length L f
  have e2 : superInput (keywords R v L f working output) = .ok (L, imposeReality L (toRow (pad (items L f)))) := by
    unfold superInput keywords
    simp only [e1, ok_bind, pure_eq_ok]
  have e3 : rotor (keywords R v L f working output) = .ok R := Verif.Lemmas.Bms.rotor_ok R hR _ rfl
  have e4 : velocity (keywords R v L f working output) = .ok [v 0, v 1, v 2] := Verif.Lemmas.Bms.velocity_ok v hv _ rfl
  have e5 : workingEllMax (keywords R v L f working output) n L = .ok working := by
    unfold workingEllMax keywords
    simp only [Option.getD_some]
    exact if_neg (by omega)
  have e6 : translations (keywords R v L f working output) (imposeReality L (toRow (pad (items L f)))) = .ok (imposeReality L (toRow (pad (items L f)))) := by
    unfold translations stepSpacetime stepSpace stepTime keywords
    rfl
  have hp : process n (keywords R v L f working output) = .ok
      { frame_rotation := R, boost_velocity := [v 0, v 1, v 2], ellMaxSuper := L, supertranslation := imposeReality L (toRow (pad (items L f))), working_ell_max := working, output_ell_max := output } := by
    unfold process
    rw [e2, ok_bind]
    simp only
    rw [e6, ok_bind, e5, ok_bind, e3, ok_bind, e4, ok_bind]
    rfl
  refine ⟨_, hp, rfl, Verif.Lemmas.Bms.getD_vec v, rfl, rfl, rfl, ?_⟩
  intro ell m h0 h1 h2 h3
  have hreal : IsReal L (toRow (items L f)) := by
    intro l k g0 g1 g2
    rw [abs_le] at g2
    unfold Props.TransformKwargs.weight
    rw [items_spec f g0 g1 (by omega) (by omega), items_spec f g0 g1 g2.1 g2.2, hf l k g0 g1 g2.1 g2.2]
  have := Props.TransformKwargs.process_unchanged n (items L f) (keywords R v L f working output) rfl rfl rfl rfl _ hp hreal ell m h0 h1 (abs_le.mpr ⟨h2, h3⟩)
  unfold Props.TransformKwargs.weight at this
  rw [items_spec f h0 h1 h2 h3] at this
  exact this

theorem velocity_small {L : Int} {kw : Kw} {r : Result} (h : process L kw = .ok r) : ∑ i, vec3 r.boost_velocity i * vec3 r.boost_velocity i < 1 := by
  obtain ⟨-, -, h1, h2, -⟩ := Props.TransformKwargs.process_rest L kw r h
  obtain ⟨x, y, z, e⟩ := List.length_eq_three.mp h1
  rw [e] at h2 ⊢
  simp [vec3, Fin.sum_univ_three] at h2 ⊢
  linarith

/-- **C97**: for every time translation and rotation and every transformation of the data that is accepted there is one of the rotated data, with `Follows`: the supertranslation has as many modes, and `working_ell_max` and
`output_ell_max` are the same. -/
theorem factor (n : Int) (kw : Kw) (r : Result) (hr : process n kw = .ok r) (tau : ℝ) (Q : Quaternion ℝ) (hQ : UnitRotor Q) : ∃ kw' r', process n kw' = .ok r' ∧ Follows tau Q r r' := by
  obtain ⟨⟨-, -, hR, -⟩, -, -, -, hw⟩ := Props.TransformKwargs.process_rest n kw r hr
  have hreal := (Props.TransformKwargs.process_spec n kw r hr).1
  have hL := ellMaxSuper_pos hr
  have hR' : UnitRotor (star Q * r.frame_rotation) := by
    show Quaternion.normSq _ = 1
    rw [map_mul, Quaternion.normSq_star, hR, mul_one]
    exact hQ
  have hQ' : UnitRotor (star Q) := by
    show Quaternion.normSq _ = 1
    rw [Quaternion.normSq_star]
    exact hQ
  have hv : ∑ i, rotateVec (star Q) (vec3 r.boost_velocity) i * rotateVec (star Q) (vec3 r.boost_velocity) i < 1 := by
    rw [sum_rotated hQ']
    exact velocity_small hr
  obtain ⟨r', h1, h2, h3, h4, h5, h6, h7⟩ := process_keywords n hR' hv hL
    (f := fun ell m => rot ell Q (superModes r.supertranslation ell) m - if ell = 0 then constantAs tau else 0) (fun ell m g0 g1 g2 g3 => by
      beta_reduce
      rw [rot_real ell Q (superModes r.supertranslation ell) (fun k k1 k2 => hreal ell k g0 g1 (abs_le.mpr ⟨k1, k2⟩)) m g2 g3, map_sub, mul_sub]
      congr 1
      by_cases h : ell = 0
      · rw [if_pos h, show m = 0 by omega]
        simp [constantAs]
      · rw [if_neg h, map_zero, mul_zero]) (output := r.output_ell_max) hw
  refine ⟨_, r', h1, ⟨?_, ?_, ?_, h4, h5, h6⟩⟩
  · rw [h2, ← mul_assoc, mul_star_unit hQ, one_mul]
  · rw [h3, ← rotateVec_mul, mul_star_unit hQ, Props.AbdTransform.rotateVec_one]
  · exact h7

theorem Follows.inverse {tau : ℝ} {Q : Quaternion ℝ} (hQ : UnitRotor Q) {r r' : Result} (h : Follows tau Q r r') : Follows (-tau) (star Q) r' r where
  rotation := by rw [h.rotation, ← mul_assoc, star_mul_unit hQ, one_mul]
  velocity := by rw [h.velocity, ← rotateVec_mul, star_mul_unit hQ, Props.AbdTransform.rotateVec_one]
  super := by
    intro ell m g0 g1 g2 g3
    rw [h.ellMaxSuper] at g1
    by_cases hl : ell = 0
    · subst hl
      have hm : m = 0 := by omega
      subst hm
      rw [rot_degree_zero, h.super 0 0 le_rfl g1 le_rfl le_rfl, rot_degree_zero, if_pos rfl, if_pos rfl]
      unfold constantAs
      push_cast
      ring
    · rw [if_neg hl, sub_zero]
      have e : ∀ k, -ell ≤ k ∧ k ≤ ell → superModes r'.supertranslation ell k = rot ell Q (superModes r.supertranslation ell) k := by
        intro k hk
        rw [h.super ell k g0 g1 hk.1 hk.2, if_neg hl, sub_zero]
      rw [Verif.Rotation.rot_congr ell (star Q) _ _ m e]
      show _ = rot ell (star Q) (rot ell Q (superModes r.supertranslation ell)) m
      rw [Verif.Rotation.rot_rot ell Q (star Q) _ m ⟨g2, g3⟩, mul_star_unit hQ, Verif.Rotation.rot_one ell _ m ⟨g2, g3⟩]
  ellMaxSuper := h.ellMaxSuper.symm
  working := h.working.symm
  output := h.output.symm

/-- **C97**: and for every transformation of the rotated data there is one of the data. -/
theorem compose (n : Int) (kw' : Kw) (r' : Result) (hr' : process n kw' = .ok r') (tau : ℝ) (Q : Quaternion ℝ) (hQ : UnitRotor Q) : ∃ kw r, process n kw = .ok r ∧ Follows tau Q r r' := by
  have hQ' : UnitRotor (star Q) := by
    show Quaternion.normSq _ = 1
    rw [Quaternion.normSq_star]
    exact hQ
  obtain ⟨kw, r, h, hf⟩ := factor n kw' r' hr' (-tau) (star Q) hQ'
  refine ⟨kw, r, h, ?_⟩
  have := hf.inverse hQ'
  rwa [neg_neg, star_star] at this

/-! ## As the methods are called -/

theorem unit_of {kw : Kw} {tau : ℝ} {R : Quaternion ℝ} (h : TimeAndRotation kw tau R) : UnitRotor R := by
  rcases h.rotation with ⟨-, rfl⟩ | ⟨q, -, hq, rfl⟩
  · show Quaternion.normSq 1 = 1
    simp
  · show Quaternion.normSq _ = 1
    have h0 : 0 < √(Quaternion.normSq q) := lt_of_lt_of_le (by norm_num) hq
    have h1 : Quaternion.normSq q ≠ 0 := (Real.sqrt_pos.mp h0).ne'
    rw [Quaternion.normSq_smul, inv_pow, Real.sq_sqrt Quaternion.normSq_nonneg, inv_mul_cancel₀ h1]

/-- **C97**: `abd.transform(time_translation=tau, frame_rotation=Q).transform(**kw')` is `abd.transform(**kw)`, with all its times and modes; and there are such `kw` for all `kw'`, and such `kw'` for all `kw`. -/
theorem rotation_first {spline : List (ℝ × ℂ) → ℝ → ℂ} (hs : Spec.Interpolates spline) {map2salm : List ℂ → Nat → Nat → Int → Int → Row ℂ} (hE : Exact map2salm) (a : Abd) (ha : Good a)
    (kw0 : Kw) (tau : ℝ) (Q : Quaternion ℝ) (h0 : TimeAndRotation kw0 tau Q) (n1 : kw0.working_ell_max = none) (n2 : kw0.output_ell_max = none) :
    ∃ b, Verif.AbdModes.transform spline map2salm a kw0 = .ok b ∧ b.ellMax = a.ellMax ∧ Transformed b a tau Q ∧
      (∀ kw kw' r r', process a.ellMax kw = .ok r → process a.ellMax kw' = .ok r' → Follows tau Q r r' → Verif.AbdModes.transform spline map2salm b kw' = Verif.AbdModes.transform spline map2salm a kw) ∧
      (∀ kw r, process a.ellMax kw = .ok r → ∃ kw' r', process a.ellMax kw' = .ok r' ∧ Follows tau Q r r' ∧ Verif.AbdModes.transform spline map2salm b kw' = Verif.AbdModes.transform spline map2salm a kw) ∧
      ∀ kw' r', process a.ellMax kw' = .ok r' → ∃ kw r, process a.ellMax kw = .ok r ∧ Follows tau Q r r' ∧ Verif.AbdModes.transform spline map2salm b kw' = Verif.AbdModes.transform spline map2salm a kw := by
  have hQ := unit_of h0
  obtain ⟨b, e1, e2, e3⟩ := Props.AbdModes.transform_default hs hE a ha kw0 tau Q h0 n1 n2
  refine ⟨b, e1, e2, e3, fun kw kw' r r' hr hr' h => covariant spline map2salm ha hQ e3 e2 hr hr' h, fun kw r hr => ?_, fun kw' r' hr' => ?_⟩
  · obtain ⟨kw', r', hr', h⟩ := factor a.ellMax kw r hr tau Q hQ
    exact ⟨kw', r', hr', h, covariant spline map2salm ha hQ e3 e2 hr hr' h⟩
  · obtain ⟨kw, r, hr, h⟩ := compose a.ellMax kw' r' hr' tau Q hQ
    exact ⟨kw, r, hr, h, covariant spline map2salm ha hQ e3 e2 hr hr' h⟩

/-- The keywords of a boost alone. -/
theorem process_boost {n : Int} (hn : 0 ≤ n) {v : Fin 3 → ℝ} (hv : ∑ i, v i * v i < 1) (R : Option (Quaternion ℝ)) (hR : ∀ q ∈ R, UnitRotor q) :
    ∃ r, process n { boost_velocity := some (List.ofFn v), frame_rotation := R.map components } = .ok r ∧ r.frame_rotation = R.getD 1 ∧ vec3 r.boost_velocity = v ∧ r.ellMaxSuper = 1 ∧
      r.working_ell_max = 2 * n + 1 ∧ r.output_ell_max = n ∧ r.supertranslation = fun _ => 0 := by
  have e3 : rotor { boost_velocity := some (List.ofFn v), frame_rotation := R.map components } = .ok (R.getD 1) := by
    cases R with
    | none => exact Verif.Lemmas.Bms.rotor_none _ rfl
    | some q => exact Verif.Lemmas.Bms.rotor_ok q (hR q rfl) _ rfl
  have e4 : velocity { boost_velocity := some (List.ofFn v), frame_rotation := R.map components } = .ok [v 0, v 1, v 2] := Verif.Lemmas.Bms.velocity_ok v hv _ rfl
  have e5 : workingEllMax { boost_velocity := some (List.ofFn v), frame_rotation := R.map components } n 1 = .ok (2 * n + 1) := if_neg (by simp; omega)
  refine ⟨{ frame_rotation := R.getD 1, boost_velocity := [v 0, v 1, v 2], ellMaxSuper := 1, supertranslation := fun _ => 0, working_ell_max := 2 * n + 1, output_ell_max := n }, ?_, rfl,
    Verif.Lemmas.Bms.getD_vec v, rfl, rfl, rfl, rfl⟩
  unfold process
  rw [show superInput { boost_velocity := some (List.ofFn v), frame_rotation := R.map components } = .ok (1, fun _ => 0) from rfl, ok_bind]
  simp only
  rw [show translations { boost_velocity := some (List.ofFn v), frame_rotation := R.map components } (fun _ => 0) = .ok (fun _ => 0) from rfl, ok_bind, e5, ok_bind, e3, ok_bind, e4, ok_bind]
  rfl

/-- **C97**: `abd.transform(boost_velocity=Q v)` is a rotation of the axes, the boost by `v`, and the rotation back, in two calls: `abd.transform(frame_rotation=Q).transform(boost_velocity=v, frame_rotation=Q⁻¹)`. -/
theorem boost_rotated {spline : List (ℝ × ℂ) → ℝ → ℂ} (hs : Spec.Interpolates spline) {map2salm : List ℂ → Nat → Nat → Int → Int → Row ℂ} (hE : Exact map2salm) (a : Abd) (ha : Good a)
    (Q : Quaternion ℝ) (hQ : UnitRotor Q) (v : Fin 3 → ℝ) (hv : ∑ i, v i * v i < 1) :
    ∃ b, Verif.AbdModes.transform spline map2salm a { frame_rotation := some (components Q) } = .ok b ∧ Transformed b a 0 Q ∧
      Verif.AbdModes.transform spline map2salm b { boost_velocity := some (List.ofFn v), frame_rotation := some (components (star Q)) } =
        Verif.AbdModes.transform spline map2salm a { boost_velocity := some (List.ofFn (rotateVec Q v)) } := by
  have hQ1 : Quaternion.normSq Q = 1 := hQ
  have h0 : TimeAndRotation { frame_rotation := some (components Q) } 0 Q := ⟨rfl, rfl, rfl, rfl, .inl ⟨rfl, rfl⟩, .inr ⟨Q, rfl, by rw [hQ1, Real.sqrt_one]; norm_num, by rw [hQ1]; simp⟩⟩
  obtain ⟨b, e1, -, e3, e2, -⟩ := rotation_first hs hE a ha _ 0 Q h0 rfl rfl
  have hQ' : UnitRotor (star Q) := by
    show Quaternion.normSq _ = 1
    rw [Quaternion.normSq_star]
    exact hQ
  obtain ⟨r', p1, p2, p3, p4, p5, p6, p7⟩ := process_boost ha.ellMax hv (some (star Q)) (fun q hq => by cases hq; exact hQ')
  obtain ⟨r, q1, q2, q3, q4, q5, q6, q7⟩ := process_boost (v := rotateVec Q v) ha.ellMax (by rw [sum_rotated hQ]; exact hv) none (fun q hq => by cases hq)
  refine ⟨b, e1, e3, e2 _ _ r r' q1 p1 ⟨?_, by rw [q3, p3], ?_, by rw [p4, q4], by rw [p5, q5], by rw [p6, q6]⟩⟩
  · rw [p2, q2]
    exact (mul_star_unit hQ).symm
  · intro ell m _ _ _ _
    rw [p7, q7]
    have e : superModes (fun _ => (0 : ℂ)) ell = fun _ => 0 := rfl
    rw [e, Verif.Props.GridModes.rot_zero]
    simp [constantAs]

/-- Every vector is a rotated one along the z axis. -/
theorem along_axis (v : Fin 3 → ℝ) : ∃ Q : Quaternion ℝ, UnitRotor Q ∧ v = rotateVec Q ![0, 0, vabs v] := by
  by_cases hb : vabs v = 0
  · refine ⟨1, by show Quaternion.normSq 1 = 1; simp, ?_⟩
    rw [Props.AbdTransform.rotateVec_one, hb]
    unfold vabs at hb
    rw [Real.sqrt_eq_zero (by positivity)] at hb
    have h0 : v 0 = 0 := by nlinarith [sq_nonneg (v 0), sq_nonneg (v 1), sq_nonneg (v 2)]
    have h1 : v 1 = 0 := by nlinarith [sq_nonneg (v 0), sq_nonneg (v 1), sq_nonneg (v 2)]
    have h2 : v 2 = 0 := by nlinarith [sq_nonneg (v 0), sq_nonneg (v 1), sq_nonneg (v 2)]
    funext i
    fin_cases i
    · exact h0
    · exact h1
    · exact h2
  have hp : 0 < vabs v := lt_of_le_of_ne (Real.sqrt_nonneg _) (Ne.symm hb)
  have hsq : vabs v ^ 2 = v 0 ^ 2 + v 1 ^ 2 + v 2 ^ 2 := Real.sq_sqrt (by positivity)
  obtain ⟨z, hz⟩ : ∃ z : ℂ, z = ⟨v 0, v 1⟩ := ⟨_, rfl⟩
  have hz0 : ‖z‖ * Real.cos z.arg = v 0 := by rw [Complex.norm_mul_cos_arg, hz]
  have hz1 : ‖z‖ * Real.sin z.arg = v 1 := by rw [Complex.norm_mul_sin_arg, hz]
  have hzn : ‖z‖ ^ 2 = v 0 ^ 2 + v 1 ^ 2 := by
    rw [← Complex.normSq_eq_norm_sq, hz, Complex.normSq_mk]
    ring
  obtain ⟨θ, hθ⟩ : ∃ θ : ℝ, θ = Real.arccos (v 2 / vabs v) := ⟨_, rfl⟩
  have hc : Real.cos θ = v 2 / vabs v := by
    rw [hθ]
    refine Real.cos_arccos ?_ ?_
    · rw [le_div_iff₀ hp]
      nlinarith [sq_nonneg (v 0), sq_nonneg (v 1), sq_nonneg (v 2 + vabs v)]
    · rw [div_le_one hp]
      nlinarith [sq_nonneg (v 0), sq_nonneg (v 1), sq_nonneg (v 2 - vabs v)]
  have hs : Real.sin θ = ‖z‖ / vabs v := by
    rw [hθ, Real.sin_arccos, ← Real.sqrt_sq (show 0 ≤ ‖z‖ / vabs v by positivity)]
    congr 1
    rw [div_pow, div_pow, hzn]
    field_simp
    rw [hsq]
    ring
  refine ⟨Verif.GridMultiply.rotor θ z.arg, (Props.FluxCovariance.unit_iff _).mpr (Verif.GridMultiply.rotor_unit θ z.arg), ?_⟩
  · have e : (![0, 0, vabs v] : Fin 3 → ℝ) = vabs v • ![0, 0, 1] := by
      funext i
      fin_cases i <;> simp
    rw [e, Verif.Lemmas.Bms.rotateVec_smul]
    funext i
    have := Props.FluxCovariance.dir_rotor i θ z.arg
    unfold dir at this
    rw [Pi.smul_apply, this, smul_eq_mul]
    fin_cases i
    · show v 0 = vabs v * (Real.sin θ * Real.cos z.arg)
      rw [hs, ← hz0]
      field_simp
    · show v 1 = vabs v * (Real.sin θ * Real.sin z.arg)
      rw [hs, ← hz1]
      field_simp
    · show v 2 = vabs v * Real.cos θ
      rw [hc]
      field_simp

/-- **C97**: every boost is a boost along the z axis of rotated data. -/
theorem boost_axis {spline : List (ℝ × ℂ) → ℝ → ℂ} (hs : Spec.Interpolates spline) {map2salm : List ℂ → Nat → Nat → Int → Int → Row ℂ} (hE : Exact map2salm) (a : Abd) (ha : Good a)
    (v : Fin 3 → ℝ) (hv : vabs v < 1) : ∃ Q : Quaternion ℝ, UnitRotor Q ∧ v = rotateVec Q ![0, 0, vabs v] ∧
      ∃ b, Verif.AbdModes.transform spline map2salm a { frame_rotation := some (components Q) } = .ok b ∧ Transformed b a 0 Q ∧
        Verif.AbdModes.transform spline map2salm b { boost_velocity := some [0, 0, vabs v], frame_rotation := some (components (star Q)) } =
          Verif.AbdModes.transform spline map2salm a { boost_velocity := some [v 0, v 1, v 2] } := by
  obtain ⟨Q, hQ, e⟩ := along_axis v
  have hb : 0 ≤ vabs v := Real.sqrt_nonneg _
  obtain ⟨b, e1, e2, e3⟩ := boost_rotated hs hE a ha Q hQ ![0, 0, vabs v] (by simp [Fin.sum_univ_three]; nlinarith)
  refine ⟨Q, hQ, e, b, e1, e2, ?_⟩
  rw [← e] at e3
  have l1 : List.ofFn (![0, 0, vabs v] : Fin 3 → ℝ) = [0, 0, vabs v] := by simp [List.ofFn_succ]
  have l2 : List.ofFn v = [v 0, v 1, v 2] := by simp [List.ofFn_succ]
  rw [l1, l2] at e3
  exact e3

/-- The hypotheses can be met: three times, all modes up to 2, and a boost in the direction `(2, -1, 2)`. -/
example : ∃ spline map2salm, Spec.Interpolates spline ∧ Exact map2salm ∧ Good Props.AbdModes.sample ∧ vabs ![2/5, -1/5, 2/5] = 3/5 := by
  obtain ⟨s, hs⟩ := Props.AbdModes.interpolates_exists
  obtain ⟨m, hm⟩ := Props.GridModes.exact_exists
  refine ⟨s, m, hs, hm, Props.AbdModes.sample_good, ?_⟩
  unfold vabs
  rw [show (![2/5, -1/5, 2/5] : Fin 3 → ℝ) 0 ^ 2 + (![2/5, -1/5, 2/5] : Fin 3 → ℝ) 1 ^ 2 + (![2/5, -1/5, 2/5] : Fin 3 → ℝ) 2 ^ 2 = (3/5) ^ 2 by simp; norm_num]
  exact Real.sqrt_sq (by norm_num)

end Verif.Props.AbdCovariant
