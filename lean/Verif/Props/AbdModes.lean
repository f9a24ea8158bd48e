import Verif.Spec.AbdModes
import Verif.Props.GridBoost

/-!
# Properties of `AsymptoticBondiData.transform`, from modes to modes (C61)
-/

namespace Verif.Props.AbdModes

open Verif Verif.Modes Verif.AbdModes Verif.AbdModes.Spec Verif.TransformKwargs Verif.AbdTransform
open Verif.GridModes (vec3 vDotR zhat dot)
open Verif.GridModes.Spec (Exact TimeAndRotation dir superModes ethTime)
open Verif.GridMultiply (Y rect)
open Verif.GridMultiply.Spec (expansion)
open Verif.Props.GridModes (dot_eq boosted boosted_dir)

/-- There are interpolating splines. -/
theorem interpolates_exists : ∃ spline, Spec.Interpolates spline := by
  classical
  refine ⟨fun nodes x => if h : ∃ p ∈ nodes, p.1 = x then (Classical.choose h).2 else 0, ?_⟩
  intro nodes hn p hp
  have hex : ∃ q ∈ nodes, q.1 = p.1 := ⟨p, hp, rfl⟩
  simp only [dif_pos hex]
  have hc := Classical.choose_spec hex
  have hinj : Set.InjOn Prod.fst {q | q ∈ nodes} := List.inj_on_of_nodup_map (hn.imp fun h => h.ne)
  rw [hinj hc.1 hp hc.2]

theorem spin_eq : spin = spinOf := rfl

theorem evaluate_eq (a : Abd) (R : Quaternion ℝ) (c : Fin 6) (i : Nat) : evaluate a R c i = value a i R c := by
  unfold evaluate
  rw [dot_eq, spin_eq]
  rfl

/-- The keywords of a time translation and a rotation. -/
theorem process_time {kw : Kw} {tau : ℝ} {R : Quaternion ℝ} (h : TimeAndRotation kw tau R) (L w : Int) (hw : w = kw.working_ell_max.getD (2 * L + 1)) (hL : L ≤ w) :
    ∃ row, process L kw = .ok { frame_rotation := R, boost_velocity := [0, 0, 0], ellMaxSuper := 1, supertranslation := row, working_ell_max := w, output_ell_max := kw.output_ell_max.getD L } ∧
      row 0 = constantAs tau ∧ ∀ i, i ≠ 0 → row i = 0 := by
  have hr := Props.GridModes.rotation_ok h.rotation
  have hv : velocity kw = .ok [0, 0, 0] := by
    unfold velocity
    rw [h.boost]
    simp
  have ht : ∃ row, translations kw (fun _ => 0) = .ok row ∧ row 0 = constantAs tau ∧ ∀ i, i ≠ 0 → row i = 0 := by
    unfold translations stepSpacetime stepSpace stepTime
    rw [h.spacetime, h.space]
    rcases h.time with ⟨e, rfl⟩ | e
    · rw [e]
      exact ⟨_, rfl, by simp [initial, constantAs], fun i _ => rfl⟩
    · rw [e]
      refine ⟨_, rfl, by simp [putTime], fun i hi => ?_⟩
      rw [Props.TransformKwargs.putTime_row _ _ hi]
      rfl
  obtain ⟨row, ht, h3, h4⟩ := ht
  have hsup : superInput kw = .ok (1, fun _ => 0) := by
    unfold superInput
    rw [h.super]
  have hwk : workingEllMax kw L 1 = .ok w := by
    unfold workingEllMax
    simp only [← hw]
    exact if_neg (by omega)
  refine ⟨row, ?_, h3, h4⟩
  unfold process
  simp only [hsup, ok_bind, ht, hwk, hr, hv, pure_eq_ok]

theorem bar_zero {f : Charges.Modes} {ell m : Int} (h : f ell (-m) = 0) : Charges.bar 0 f ell m = 0 := by
  unfold Charges.bar
  rw [h, map_zero, mul_zero]

/-- In every direction there is only a time translation. -/
theorem only_time (a : Abd) {r : Result} {tau : ℝ} (hb : r.boost_velocity = [0, 0, 0]) (hL : r.ellMaxSuper = 1) (h0 : r.supertranslation 0 = constantAs tau) (h1 : ∀ i, i ≠ 0 → r.supertranslation i = 0)
    (R : Quaternion ℝ) : Props.AbdTransform.OnlyTime tau (dirAt a r R) ∧ alpha0 r = tau := by
  have hv : vec3 r.boost_velocity = fun _ => 0 := by rw [hb, Props.GridModes.vec3_zero]
  have hz : ∀ ell m : Int, 1 ≤ ell → -ell ≤ m → m ≤ ell → alphaModes r ell m = 0 := by
    intro ell m g1 g2 g3
    have e : ∀ k : Int, -ell ≤ k → k ≤ ell → r.supertranslation (lmIndex ell k 0) = 0 := by
      intro k k1 k2
      refine h1 _ ?_
      have := lmIndex_block 0 ⟨k1, k2⟩
      nlinarith
    unfold alphaModes Charges.re
    beta_reduce
    rw [e m g2 g3, bar_zero (e (-m) (by omega) (by omega))]
    simp
  have h00 : alphaModes r 0 0 = constantAs tau := by
    have e : r.supertranslation (lmIndex 0 0 0) = constantAs tau := h0
    unfold alphaModes Charges.re Charges.bar
    beta_reduce
    rw [e, show r.supertranslation (lmIndex 0 (-0) 0) = constantAs tau from h0]
    simp [constantAs]
  have hexp : ∀ s (f : Charges.Modes), (∀ ell m : Int, 0 ≤ ell → -ell ≤ m → m ≤ ell → f ell m = 0) → dot f s 1 R = 0 := by
    intro s f hf
    rw [dot_eq]
    refine Finset.sum_eq_zero fun ell g1 => Finset.sum_eq_zero fun m g2 => ?_
    rw [Finset.mem_Icc] at g1 g2
    rw [hf ell m g1.1 g2.1 g2.2, zero_mul]
  have hn0 : ∀ ell m : Int, 0 ≤ ell → -ell ≤ m → m ≤ ell → ethNP 0 (alphaModes r) ell m = 0 := by
    intro ell m g1 g2 g3
    unfold ethNP
    rcases g1.eq_or_lt with e | e
    · subst e
      simp
    · rw [hz ell m e g2 g3, mul_zero]
  refine ⟨⟨?_, ?_, ?_, ?_, ?_⟩, ?_⟩
  · simp only [dirAt, hv, zero_mul, Finset.sum_const_zero]
  · refine hexp 1 _ fun ell m _ _ _ => ?_
    rw [hv]
    have hz : (⟨0, 0⟩ : ℂ) = 0 := rfl
    simp [vDotR, vectorAs, hz]
  · simp only [dirAt, hL]
    rw [dot_eq]
    have : expansion 0 1 (alphaModes r) R = constantAs tau * Y 0 0 0 R := by
      unfold expansion
      rw [Finset.sum_eq_single 0]
      · simp [h00]
      · intro ell g1 g2
        rw [Finset.mem_Icc] at g1
        refine Finset.sum_eq_zero fun m g3 => ?_
        rw [Finset.mem_Icc] at g3
        rw [hz ell m (by omega) g3.1 g3.2, zero_mul]
      · intro g
        exact absurd (Finset.mem_Icc.mpr ⟨le_rfl, by norm_num⟩) g
    rw [this, Props.GridModes.constant_value]
  · simp only [dirAt, hL]
    exact hexp 1 _ hn0
  · simp only [dirAt, hL]
    refine hexp 2 _ fun ell m g1 g2 g3 => ?_
    unfold ethNP at hn0 ⊢
    rw [hn0 ell m g1 g2 g3, mul_zero]
  · unfold alpha0
    rw [h00, Props.GridModes.constantFrom_as]

/-- **C61**: a time translation by `tau` and a rotation by `R`, with any working and output `ell_max` that are accepted. -/
theorem transform_time_rotation {spline : List (ℝ × ℂ) → ℝ → ℂ} (hs : Spec.Interpolates spline) {map2salm : List ℂ → Nat → Nat → Int → Int → Row ℂ} (hE : Exact map2salm) (a : Abd) (ha : Good a)
    (kw : Kw) (tau : ℝ) (R : Quaternion ℝ) (h : TimeAndRotation kw tau R) (w L : Int) (hw : w = kw.working_ell_max.getD (2 * a.ellMax + 1)) (hL : L = kw.output_ell_max.getD a.ellMax) (h1 : a.ellMax ≤ w) (h2 : L ≤ w) :
    ∃ b, Verif.AbdModes.transform spline map2salm a kw = .ok b ∧ b.ellMax = L ∧ Transformed b a tau R := by
  obtain ⟨row, hp, r0, r1⟩ := process_time h a.ellMax w hw h1
  have h0 := ha.ellMax
  have ht : a.t ≠ [] := by
    intro e
    have := ha.times
    rw [e] at this
    simp at this
  let r : Result := { frame_rotation := R, boost_velocity := [0, 0, 0], ellMaxSuper := 1, supertranslation := row, working_ell_max := w, output_ell_max := kw.output_ell_max.getD a.ellMax }
  let n := (2 * w + 1).toNat
  have hgrid : boostedGrid r n = (rect n n).map (R * ·) := by
    unfold boostedGrid
    simp only [r, Props.GridModes.vec3_zero, Props.GridModes.vabs_zero]
    refine List.map_congr_left fun x _ => ?_
    rw [Bprm, if_neg (lt_irrefl _), one_mul]
  have hot := fun R => only_time a (r := r) (tau := tau) rfl rfl r0 r1 R
  obtain ⟨vals, e1, e2, e3⟩ := Props.AbdTransform.time_translation spline hs tau a.t ht ha.increasing ((boostedGrid r n).map (dirAt a r))
    (by rw [hgrid]; simpa using Props.GridModes.rect_ne_nil (by omega) (by omega)) (by
      intro d hd
      obtain ⟨x, -, rfl⟩ := List.mem_map.mp hd
      exact (hot x).1)
  refine ⟨Abd.mk (a.t.map (· - tau)) L (newModes map2salm n L (a.t.map (· - tau)) vals), ?_, rfl, rfl, ?_⟩
  · unfold Verif.AbdModes.transform
    rw [hp, ok_bind]
    have : vabs (vec3 r.boost_velocity) = 0 := by rw [Props.GridModes.vec3_zero, Props.GridModes.vabs_zero]
    rw [this, (hot 1).2]
    refine Eq.trans (b := if a.t.length < 2 ∨ ¬ a.t.Pairwise (· < ·) then .error .valueError else .ok (Abd.mk (a.t.map (· - tau)) r.output_ell_max (newModes map2salm n r.output_ell_max (a.t.map (· - tau)) vals))) (by show (AbdTransform.transform spline 0 tau a.t ((boostedGrid r n).map (dirAt a r)) >>= _) = _; rw [e1]; rfl) ?_
    rw [if_neg (not_or.mpr ⟨not_lt.mpr ha.times, not_not.mpr ha.increasing⟩)]
    rw [hL]
  · intro c
    refine ⟨by simp [newModes], ?_⟩
    intro i hi ell m g1 g2 g3 g4
    have hm : mode (Abd.mk (a.t.map (· - tau)) L (newModes map2salm n L (a.t.map (· - tau)) vals)) c i ell m =
        map2salm (vals.map fun d => (d.getD c []).getD i 0) n n (spinOf c) L (lmIndex ell m 0) := by
      unfold mode newModes
      rw [← spin_eq]
      simp [List.getD_eq_getElem?_getD, hi]
    rw [hm]
    have hv : (vals.map fun d => (d.getD c []).getD i 0) = (rect n n).map (expansion (spinOf c) w fun ell m => if ell ≤ a.ellMax then Verif.Spec.Rotation.rot ell R (mode a c i ell) m else 0) := by
      refine List.ext_getElem (by rw [List.length_map, e2, hgrid]; simp) fun j j1 j2 => ?_
      have hj : j < (rect n n).length := by simpa using j2
      have := e3 j (by rw [hgrid]; simpa using hj) i hi c
      rw [List.getElem_map, List.getElem_map, Props.GridMultiply.expansion_extend _ h1 fun ell => Verif.Spec.Rotation.rot ell R (mode a c i ell), ← Props.GridModes.expansion_rotated]
      rw [List.getD_eq_getElem vals _ (by simpa using j1)] at this
      rw [this]
      simp only [hgrid, List.getElem_map]
      refine Eq.trans ?_ (evaluate_eq a _ c i)
      fin_cases c <;> rfl
    rw [hv]
    exact hE n n (spinOf c) w L _ ell m (by omega) (by omega) (by omega) h2 g1 g2 g3 g4

/-! ## Boosts and supertranslations -/

theorem expansion_congr {s L : Int} {f g : Int → Int → ℂ} (h : ∀ ell m : Int, 0 ≤ ell → ell ≤ L → |m| ≤ ell → f ell m = g ell m) (R : Quaternion ℝ) : expansion s L f R = expansion s L g R := by
  unfold expansion
  refine Finset.sum_congr rfl fun ell h1 => Finset.sum_congr rfl fun m h2 => ?_
  rw [Finset.mem_Icc] at h1 h2
  rw [h ell m h1.1 h1.2 (abs_le.mpr h2)]

/-- The keywords have been made real already. -/
theorem alphaModes_eq {n : Int} {kw : Kw} {r : Result} (h : process n kw = .ok r) (ell m : Int) (h0 : 0 ≤ ell) (h1 : ell ≤ r.ellMaxSuper) (h2 : |m| ≤ ell) :
    alphaModes r ell m = superModes r.supertranslation ell m := by
  have hr := (Props.TransformKwargs.process_spec n kw r h).1 ell m h0 h1 h2
  have hr' : r.supertranslation (lmIndex ell (-m) 0) = (-1) ^ m.natAbs * (starRingEnd ℂ) (r.supertranslation (lmIndex ell m 0)) := hr
  unfold alphaModes Charges.re Charges.bar superModes
  beta_reduce
  rw [hr', zero_add]
  simp only [map_mul, Props.TransformKwargs.conj_sign, Complex.conj_conj]
  linear_combination (r.supertranslation (lmIndex ell m 0) / 2) * Props.TransformKwargs.sign_sq m.natAbs

theorem sqrt_half (x : ℝ) : √x / √2 = √(x / 2) := (Real.sqrt_div' x (by norm_num)).symm

theorem ethNP_half (s : Int) (f : Charges.Modes) (ell m : Int) : ethNP s f ell m / (√2 : ℝ) = Charges.ethGHP s f ell m := by
  unfold ethNP Charges.ethGHP
  rw [← sqrt_half]
  push_cast
  ring

theorem ethNP_twice (s s' : Int) (f : Charges.Modes) (ell m : Int) : (0.5 : ℂ) * ethNP s (ethNP s' f) ell m = Charges.ethGHP s (Charges.ethGHP s' f) ell m := by
  unfold ethNP Charges.ethGHP
  rw [← sqrt_half, ← sqrt_half]
  have h2 : ((√2 : ℝ) : ℂ) * (√2 : ℝ) = 2 := by
    rw [← Complex.ofReal_mul, Real.mul_self_sqrt (by norm_num)]
    norm_num
  have h0 : ((√2 : ℝ) : ℂ) ≠ 0 := by
    intro e
    rw [e] at h2
    norm_num at h2
  push_cast
  field_simp
  rw [show ((√2 : ℝ) : ℂ) ^ 2 = 2 by rw [sq, h2]]
  ring

theorem expansion_mul (s L : Int) (f : Int → Int → ℂ) (a : ℂ) (R : Quaternion ℝ) : a * expansion s L f R = expansion s L (fun ell m => a * f ell m) R := by
  unfold expansion
  rw [Finset.mul_sum]
  refine Finset.sum_congr rfl fun ell _ => ?_
  rw [Finset.mul_sum]
  exact Finset.sum_congr rfl fun m _ => by ring

theorem dirAt_alpha {a : Abd} {n : Int} {kw : Kw} {r : Result} (h : process n kw = .ok r) (R : Quaternion ℝ) :
    (dirAt a r R).alpha = alphaAt r.ellMaxSuper (superModes r.supertranslation) R ∧ ethAlpha (dirAt a r R) = expansion 1 r.ellMaxSuper (Charges.ethGHP 0 (superModes r.supertranslation)) R ∧
      ethEthAlpha (dirAt a r R) = expansion 2 r.ellMaxSuper (Charges.ethGHP 1 (Charges.ethGHP 0 (superModes r.supertranslation))) R := by
  refine ⟨?_, ?_, ?_⟩
  · simp only [dirAt]
    rw [dot_eq, expansion_congr (alphaModes_eq h)]
    rfl
  · unfold ethAlpha
    simp only [dirAt]
    rw [dot_eq, div_eq_inv_mul, expansion_mul]
    refine expansion_congr (fun ell m h0 h1 h2 => ?_) R
    rw [← div_eq_inv_mul, ethNP_half]
    unfold Charges.ethGHP
    rw [alphaModes_eq h ell m h0 h1 h2]
  · unfold ethEthAlpha
    simp only [dirAt]
    rw [dot_eq, expansion_mul]
    refine expansion_congr (fun ell m h0 h1 h2 => ?_) R
    rw [ethNP_twice]
    unfold Charges.ethGHP
    rw [alphaModes_eq h ell m h0 h1 h2]

theorem mix_congr {ik e : ℂ} {f g : Nat → ℂ} {n : Nat} (h : ∀ m, m ≤ 4 → f m = g m) : Verif.Spec.AbdTransform.mix ik e f n = Verif.Spec.AbdTransform.mix ik e g n := by
  unfold Verif.Spec.AbdTransform.mix
  congr 1
  refine Finset.sum_congr rfl fun j hj => ?_
  rw [Finset.mem_range] at hj
  rw [h _ (by omega)]

/-- Before the interpolation in time. -/
theorem fprime_value {a : Abd} {n : Int} {kw : Kw} {r : Result} (h : process n kw = .ok r) (g : ℝ) (hg : g ≠ 0) (R : Quaternion ℝ) (hk : 1 - ∑ i, vec3 r.boost_velocity i * dir R i ≠ 0) (V : Int → Int → ℂ)
    (hV : ∀ R, Verif.GridMultiply.Spec.Unit R → expansion 0 1 V R = ((∑ i, vec3 r.boost_velocity i * dir R i : ℝ) : ℂ)) (i : Nat) (u : ℝ) (c : Fin 6) :
    (fprime g (dirAt a r R) i u).getD c 0 =
      newValue a g (doppler g (vec3 r.boost_velocity) R) (alphaAt r.ellMaxSuper (superModes r.supertranslation) R) V (superModes r.supertranslation) r.ellMaxSuper R c i u := by
  obtain ⟨a1, a2, a3⟩ := dirAt_alpha (a := a) h R
  obtain ⟨f1, f2, -⟩ := Props.AbdTransform.fprime_spec g (dirAt a r R) i u
  have hvr : (dirAt a r R).vr = ∑ i, vec3 r.boost_velocity i * dir R i := rfl
  have hik : oneOverK g (dirAt a r R) = 1 / doppler g (vec3 r.boost_velocity) R := by
    unfold oneOverK doppler
    rw [hvr, one_div_one_div]
  have he : ethUprime (dirAt a r R) u = ethTime g (doppler g (vec3 r.boost_velocity) R) u (alphaAt r.ellMaxSuper (superModes r.supertranslation) R) V r.ellMaxSuper (superModes r.supertranslation) R := by
    unfold ethUprime ethTime ethkOverK doppler
    rw [a1, a2, hvr]
    have : (dirAt a r R).ethVr = expansion 1 1 (Charges.ethGHP 0 V) R := by
      simp only [dirAt]
      rw [dot_eq, Props.GridModes.ethVr_modes _ V hV R]
    rw [this]
    congr 1
    generalize ∑ i, vec3 r.boost_velocity i * dir R i = x at *
    generalize alphaAt r.ellMaxSuper (superModes r.supertranslation) R = y
    have e : (u - y) * g * (1 / (g * (1 - x))) = (u - y) / (1 - x) := by
      field_simp
    rw [e]
    push_cast
    ring
  unfold newValue
  by_cases hc : c = 5
  · subst hc
    rw [if_pos rfl, ← hik, ← a3, ← evaluate_eq]
    exact f2
  · rw [if_neg hc, ← hik, ← he]
    have hc4 : (c : Nat) ≤ 4 := by
      have := c.isLt
      have : (c : Nat) ≠ 5 := fun e => hc (Fin.ext e)
      omega
    rw [f1 _ hc4]
    refine mix_congr fun m hm => ?_
    rw [← evaluate_eq]
    interval_cases m <;> rfl

/-- **C61** for all transformations.  With two or more increasing times every accepted set of keywords gives, at each point of the grid with the rotor `q`, the values in the direction of a rotor `rot q`, which is
related to the direction of the point by the aberration formula; in this direction the six fields are those of the transformation law, interpolated in time, and the modes are what `map2salm` finds from these
values.  The new times are `(u - α₀₀) / γ`, as long as all directions have data for them. -/
theorem transform_general {spline : List (ℝ × ℂ) → ℝ → ℂ} (hs : Spec.Interpolates spline) (map2salm : List ℂ → Nat → Nat → Int → Int → Row ℂ) (a : Abd) (ha : Good a) (kw : Kw) (r : Result)
    (hr : process a.ellMax kw = .ok r) (v : Fin 3 → ℝ) (hv : v = vec3 r.boost_velocity) (beta g : ℝ) (hbeta : beta = √(∑ i, v i ^ 2)) (hg : g = 1 / √(1 - beta ^ 2))
    (V A : Int → Int → ℂ) (hV : ∀ R, Verif.GridMultiply.Spec.Unit R → expansion 0 1 V R = ((∑ i, v i * dir R i : ℝ) : ℂ)) (hA : A = superModes r.supertranslation)
    (n : Nat) (hn : n = 2 * r.working_ell_max + 1) (L : Int) (hL : L = r.ellMaxSuper) :
    ∃ (b : Abd) (rot : Quaternion ℝ → Quaternion ℝ) (values : Fin 6 → Nat → List ℂ), Verif.AbdModes.transform spline map2salm a kw = .ok b ∧ b.ellMax = kw.output_ell_max.getD a.ellMax ∧ beta < 1 ∧
      (∀ q ∈ rect n n, ∑ i, dir (rot q) i ^ 2 = 1 ∧
        ∑ i, v i * dir (rot q) i = (∑ i, v i * dir (r.frame_rotation * q) i + beta ^ 2) / (1 + ∑ i, v i * dir (r.frame_rotation * q) i) ∧ (beta = 0 → rot q = r.frame_rotation * q) ∧
        0 < doppler g v (rot q)) ∧
      b.t.Sublist (a.t.map fun u => (u - (constantFrom (A 0 0)).re) / g) ∧
      (∀ t ∈ a.t.map fun u => (u - (constantFrom (A 0 0)).re) / g, t ∈ b.t ↔
        ∀ q ∈ rect n n, ∀ first ∈ a.t.head?, ∀ last ∈ a.t.getLast?, first ≤ t / doppler g v (rot q) + alphaAt L A (rot q) ∧ t / doppler g v (rot q) + alphaAt L A (rot q) ≤ last) ∧
      (∀ c, b.data c = (List.range b.t.length).map fun i => map2salm (values c i) n n (spinOf c) b.ellMax) ∧
      ∀ (c : Fin 6) (i : Nat) (u : ℝ), b.t[i]? = some u → (values c i).length = n * n ∧ ∀ (j : Nat) (q : Quaternion ℝ), (rect n n)[j]? = some q → ∃ x, (values c i)[j]? = some x ∧
        x = spline (a.t.zipIdx.map fun p => (doppler g v (rot q) * (p.1 - alphaAt L A (rot q)), newValue a g (doppler g v (rot q)) (alphaAt L A (rot q)) V A L (rot q) c p.2 p.1)) u ∧
        ∀ (l : Nat) (hl : l < a.t.length), u = doppler g v (rot q) * (a.t[l] - alphaAt L A (rot q)) →
          x = newValue a g (doppler g v (rot q)) (alphaAt L A (rot q)) V A L (rot q) c l a.t[l] := by
  subst hL hA
  obtain ⟨row, q1, q2, q3, q4, q5, q6⟩ := Props.TransformKwargs.process_ok hr
  have hw := (Props.TransformKwargs.process_rest _ _ _ hr).2.2.2.2
  have h0 := ha.ellMax
  have hvabs : vabs v = beta := by rw [hbeta, vabs, Fin.sum_univ_three]
  have hb1 : beta < 1 := by
    rw [← hvabs, hv]
    exact Props.GridModes.velocity_vabs q5
  have hb0 : 0 ≤ beta := by rw [hbeta]; exact Real.sqrt_nonneg _
  have hgg : g = gamma beta := hg
  have hg0 : 0 < g := by
    rw [hg]
    exact one_div_pos.mpr (Real.sqrt_pos.mpr (by nlinarith))
  have hR := Props.GridModes.rotor_unit q4
  have hv2 : ∑ i, v i ^ 2 = beta ^ 2 := by rw [← hvabs, Props.GridModes.vabs_sq]
  have hne : a.t ≠ [] := by
    intro e
    have := ha.times
    rw [e] at this
    simp at this
  have hn' : (2 * r.working_ell_max + 1).toNat = n := by omega
  let B : Quaternion ℝ → Quaternion ℝ := boosted beta v r.frame_rotation
  have hgrid : boostedGrid r n = (rect n n).map B := by
    unfold boostedGrid
    simp only [← hv, hvabs]
    rfl
  have hdir := boosted_dir beta v r.frame_rotation hb0 hb1 hv2 hR
  have hvr : ∀ q ∈ rect n n, |∑ i, v i * dir (B q) i| ≤ beta := fun q hq =>
    Props.AbdTransform.dot_le v (dir (B q)) (hdir q (Verif.GridMultiply.rect_unit _ _ q hq)).1 beta hb0 hv2
  have hpos : ∀ q ∈ rect n n, 0 < 1 - ∑ i, v i * dir (B q) i := fun q hq => by linarith [(abs_le.mp (hvr q hq)).2]
  let dirs := (boostedGrid r n).map (dirAt a r)
  have hdirs : dirs = (rect n n).map fun q => dirAt a r (B q) := by
    show (boostedGrid r n).map _ = _
    rw [hgrid, List.map_map]
    rfl
  have hdne : dirs ≠ [] := by
    rw [hdirs]
    simpa using Props.GridModes.rect_ne_nil (by omega) (by omega)
  have hdv : ∀ d ∈ dirs, |d.vr| ≤ beta := by
    intro d hd
    rw [hdirs] at hd
    obtain ⟨q, hq, rfl⟩ := List.mem_map.mp hd
    have : (dirAt a r (B q)).vr = ∑ i, v i * dir (B q) i := by rw [hv]; rfl
    rw [this]
    exact hvr q hq
  have hkf : ∀ q, kFactor g (dirAt a r (B q)) = doppler g v (B q) := by
    intro q
    rw [hv]
    rfl
  have haf : ∀ q, (dirAt a r (B q)).alpha = alphaAt r.ellMaxSuper (superModes r.supertranslation) (B q) := fun q => (dirAt_alpha hr (B q)).1
  have ha0 : alpha0 r = (constantFrom (superModes r.supertranslation 0 0)).re := by
    unfold alpha0
    have := (Props.TransformKwargs.superInput_ok q1).1
    rw [alphaModes_eq hr 0 0 le_rfl (by omega) (by simp)]
  obtain ⟨ts, vals, e1, e2, e3, e4⟩ := Props.AbdTransform.transform_spec spline hs beta (alpha0 r) a.t hne ha.increasing dirs hdne hb0 hb1 hdv
  obtain ⟨ts', s1, s2, s3⟩ := Props.AbdTransform.slices_spec (gamma beta) (alpha0 r) a.t hne dirs hdne fun d hd => (Props.AbdTransform.doppler beta hb0 hb1 d (hdv d hd)).1
  have hts := Except.ok.inj (s1.symm.trans e2)
  subst hts
  rw [ha0, ← hgg] at s2 s3
  refine ⟨Abd.mk ts' r.output_ell_max (newModes map2salm n r.output_ell_max ts' vals), B, fun c i => vals.map fun d => (d.getD c []).getD i 0, ?_, q6, hb1, ?_, s2, ?_, fun c => rfl, ?_⟩
  · unfold Verif.AbdModes.transform
    rw [hr, ok_bind, ← hv, hvabs]
    simp only [hn']
    refine Eq.trans (b := if a.t.length < 2 ∨ ¬ a.t.Pairwise (· < ·) then .error .valueError else .ok (Abd.mk ts' r.output_ell_max (newModes map2salm n r.output_ell_max ts' vals))) (by
      show (AbdTransform.transform spline beta (alpha0 r) a.t dirs >>= _) = _
      rw [e1]
      rfl) ?_
    rw [if_neg (not_or.mpr ⟨not_lt.mpr ha.times, not_not.mpr ha.increasing⟩)]
  · intro q hq
    obtain ⟨d1, d2, d3⟩ := hdir q (Verif.GridMultiply.rect_unit _ _ q hq)
    exact ⟨d1, d2, d3, one_div_pos.mpr (mul_pos hg0 (hpos q hq))⟩
  · intro t ht
    rw [s3 t ht, hdirs]
    simp only [List.forall_mem_map, hkf, haf, List.head?_eq_some_head hne, List.getLast?_eq_some_getLast hne, Option.mem_def, Option.some.injEq, forall_eq']
  · intro c i u hi
    refine ⟨?_, ?_⟩
    · rw [List.length_map, e3, hdirs, List.length_map, Props.GridModes.rect_length]
    intro j q hj
    obtain ⟨hi', rfl⟩ := List.getElem?_eq_some_iff.mp hi
    obtain ⟨hj', rfl⟩ := List.getElem?_eq_some_iff.mp hj
    have hjd : j < dirs.length := by rw [hdirs]; simpa using hj'
    have hdj : dirs[j] = dirAt a r (B (rect n n)[j]) := by
      simp only [hdirs, List.getElem_map]
    obtain ⟨f1, f2⟩ := e4 j hjd c c.isLt i hi'
    rw [hdj, ← hgg] at f1 f2
    rw [List.getD_eq_getElem ts' _ hi'] at f1 f2
    have hval : ∀ i u, (fprime g (dirAt a r (B (rect n n)[j])) i u).getD c 0 = newValue a g (doppler g v (B (rect n n)[j])) (alphaAt r.ellMaxSuper (superModes r.supertranslation) (B (rect n n)[j])) V (superModes r.supertranslation) r.ellMaxSuper (B (rect n n)[j]) c i u := by
      intro i u
      have := fprime_value (a := a) hr g hg0.ne' (B (rect n n)[j]) (by rw [← hv]; exact (hpos _ (List.getElem_mem hj')).ne') V (by rw [← hv]; exact hV) i u c
      rw [← hv] at this
      exact this
    refine ⟨((vals.getD j []).getD c []).getD i 0, ?_, ?_, ?_⟩
    · have : j < vals.length := by omega
      rw [List.getElem?_map, List.getElem?_eq_getElem this, List.getD_eq_getElem vals _ this]
      rfl
    · rw [f1]
      unfold Props.AbdTransform.nodes
      simp only [hval, hkf, haf]
    · intro l hl hu
      rw [f2 l hl (by rw [hkf, haf]; exact hu), hval]

/-! ## Consequences -/

/-- With the default options there is nothing to be checked about `ell_max`. -/
theorem transform_default {spline : List (ℝ × ℂ) → ℝ → ℂ} (hs : Spec.Interpolates spline) {map2salm : List ℂ → Nat → Nat → Int → Int → Row ℂ} (hE : Exact map2salm) (a : Abd) (ha : Good a)
    (kw : Kw) (tau : ℝ) (R : Quaternion ℝ) (h : TimeAndRotation kw tau R) (h1 : kw.working_ell_max = none) (h2 : kw.output_ell_max = none) :
    ∃ b, Verif.AbdModes.transform spline map2salm a kw = .ok b ∧ b.ellMax = a.ellMax ∧ Transformed b a tau R := by
  have := ha.ellMax
  exact transform_time_rotation hs hE a ha kw tau R h (2 * a.ellMax + 1) a.ellMax (by rw [h1]; rfl) (by rw [h2]; rfl) (by omega) (by omega)

/-- **C61**: no transformation at all gives the same times and modes. -/
theorem transform_identity {spline : List (ℝ × ℂ) → ℝ → ℂ} (hs : Spec.Interpolates spline) {map2salm : List ℂ → Nat → Nat → Int → Int → Row ℂ} (hE : Exact map2salm) (a : Abd) (ha : Good a) :
    ∃ b, Verif.AbdModes.transform spline map2salm a {} = .ok b ∧ b.t = a.t ∧ b.ellMax = a.ellMax ∧ ∀ c, (b.data c).length = (a.data c).length ∧
      ∀ i, i < a.t.length → ∀ ell m, |spinOf c| ≤ ell → ell ≤ a.ellMax → -ell ≤ m → m ≤ ell → mode b c i ell m = mode a c i ell m := by
  obtain ⟨b, e, e1, t1, t2⟩ := transform_default hs hE a ha {} 0 1 ⟨rfl, rfl, rfl, rfl, .inl ⟨rfl, rfl⟩, .inl ⟨rfl, rfl⟩⟩ rfl rfl
  refine ⟨b, e, by rw [t1]; simp, e1, fun c => ⟨by rw [(t2 c).1, ha.rows], ?_⟩⟩
  intro i hi ell m g1 g2 g3 g4
  rw [(t2 c).2 i hi ell m g1 (by omega) g3 g4, if_pos g2, Verif.Rotation.rot_one ell _ m ⟨g3, g4⟩]

theorem Transformed.good {a b : Abd} (ha : Good a) {tau : ℝ} {R : Quaternion ℝ} (h : Transformed b a tau R) (he : b.ellMax = a.ellMax) : Good b where
  times := by rw [h.1, List.length_map]; exact ha.times
  increasing := by
    rw [h.1, List.pairwise_map]
    exact ha.increasing.imp fun h => by linarith
  rows c := by rw [(h.2 c).1, h.1, List.length_map]
  ellMax := by rw [he]; exact ha.ellMax

/-- **C61**: two time translations and rotations in a row are the one with the sum and the product. -/
theorem transform_compose {spline : List (ℝ × ℂ) → ℝ → ℂ} (hs : Spec.Interpolates spline) {map2salm : List ℂ → Nat → Nat → Int → Int → Row ℂ} (hE : Exact map2salm) (a : Abd) (ha : Good a)
    (kw1 kw2 kw3 : Kw) (tau1 tau2 : ℝ) (R1 R2 : Quaternion ℝ) (h1 : TimeAndRotation kw1 tau1 R1) (h2 : TimeAndRotation kw2 tau2 R2)
    (h3 : TimeAndRotation kw3 (tau1 + tau2) (R1 * R2)) (n1 : kw1.working_ell_max = none ∧ kw1.output_ell_max = none) (n2 : kw2.working_ell_max = none ∧ kw2.output_ell_max = none)
    (n3 : kw3.working_ell_max = none ∧ kw3.output_ell_max = none) :
    ∃ b d x, Verif.AbdModes.transform spline map2salm a kw1 = .ok b ∧ Verif.AbdModes.transform spline map2salm b kw2 = .ok d ∧ Verif.AbdModes.transform spline map2salm a kw3 = .ok x ∧
      d.t = x.t ∧ d.ellMax = x.ellMax ∧ ∀ c, (d.data c).length = (x.data c).length ∧
      ∀ i, i < a.t.length → ∀ ell m, |spinOf c| ≤ ell → ell ≤ a.ellMax → -ell ≤ m → m ≤ ell → mode d c i ell m = mode x c i ell m := by
  obtain ⟨b, e1, l1, t1⟩ := transform_default hs hE a ha kw1 tau1 R1 h1 n1.1 n1.2
  obtain ⟨d, e2, l2, t2⟩ := transform_default hs hE b (Transformed.good ha t1 l1) kw2 tau2 R2 h2 n2.1 n2.2
  obtain ⟨x, e3, l3, t3⟩ := transform_default hs hE a ha kw3 _ _ h3 n3.1 n3.2
  have hlen : b.t.length = a.t.length := by rw [t1.1, List.length_map]
  refine ⟨b, d, x, e1, e2, e3, ?_, by rw [l2, l1, l3], fun c => ⟨by rw [(t2.2 c).1, (t3.2 c).1, hlen], ?_⟩⟩
  · rw [t2.1, t1.1, t3.1, List.map_map]
    refine List.map_congr_left fun a _ => ?_
    simp only [Function.comp]
    ring
  · intro i hi ell m g1 g2 g3 g4
    rw [(t2.2 c).2 i (by omega) ell m g1 (by omega) g3 g4, if_pos (by omega), (t3.2 c).2 i hi ell m g1 (by omega) g3 g4, if_pos g2]
    rw [Verif.Rotation.rot_congr ell R2 _ (fun k => Verif.Spec.Rotation.rot ell R1 (mode a c i ell) k) m
      (fun k hk => ((t1.2 c).2 i hi ell k g1 (by omega) hk.1 hk.2).trans (if_pos g2))]
    exact Verif.Rotation.rot_rot ell R1 R2 _ m ⟨g3, g4⟩

/-- **C61**: a time translation and rotation of the six fields together gives for each of them what `WaveformModes.transform` gives for it alone. -/
theorem transform_agrees {spline : List (ℝ × ℂ) → ℝ → ℂ} (hs : Spec.Interpolates spline) {spline' : List (ℝ × ℝ) → ℝ → ℝ} (hs' : Verif.GridModes.Spec.Interpolates spline')
    {map2salm : List ℂ → Nat → Nat → Int → Int → Row ℂ} (hE : Exact map2salm) (other : Int → Option Verif.GridModes.WModes) (a : Abd) (ha : Good a) (c : Fin 6) (w : Verif.GridModes.WModes)
    (hw : Verif.GridModes.Spec.Good w (spinOf c)) (ht : w.t = a.t) (hl : w.ellMax = a.ellMax)
    (hm : ∀ i, i < a.t.length → ∀ ell m, |spinOf c| ≤ ell → ell ≤ a.ellMax → -ell ≤ m → m ≤ ell → mode a c i ell m = if w.ellMin ≤ ell then Verif.GridModes.Spec.mode w i ell m else 0)
    (kw : Kw) (tau : ℝ) (R : Quaternion ℝ) (h : TimeAndRotation kw tau R) (h1 : kw.working_ell_max = none) (h2 : kw.output_ell_max = none) (h3 : kw.n_theta = none) (h4 : kw.n_phi = none) :
    ∃ b v, Verif.AbdModes.transform spline map2salm a kw = .ok b ∧ Verif.GridModes.transform spline' map2salm other w none kw = .ok v ∧ b.t = v.t ∧ b.ellMax = v.ellMax ∧
      ∀ i, i < a.t.length → ∀ ell m, |spinOf c| ≤ ell → ell ≤ a.ellMax → -ell ≤ m → m ≤ ell → mode b c i ell m = Verif.GridModes.Spec.mode v i ell m := by
  obtain ⟨b, e1, l1, t1, t2⟩ := transform_default hs hE a ha kw tau R h h1 h2
  obtain ⟨v, e2, ⟨v1, v2, v3⟩, -, -, -, -, v5, v6, -⟩ := Props.GridModes.transform_default hs' hE other w _ hw kw tau R h h3 h4
  refine ⟨b, v, e1, e2, by rw [t1, v1, ht], by rw [l1, v6, hl], ?_⟩
  intro i hi ell m g1 g2 g3 g4
  rw [(t2 c).2 i hi ell m g1 (by omega) g3 g4, v3 i (by rw [hw.rows, ht]; exact hi) ell m (by omega) (by omega) g3 g4, if_pos g2]
  rw [Verif.Rotation.rot_congr ell R _ (fun k => if w.ellMin ≤ ell then Verif.GridModes.Spec.mode w i ell k else 0) m (fun k hk => hm i hi ell k g1 g2 hk.1 hk.2)]
  by_cases hc : w.ellMin ≤ ell
  · simp only [if_pos hc, if_pos (show w.ellMin ≤ ell ∧ ell ≤ w.ellMax from ⟨hc, by omega⟩)]
  · simp only [if_neg hc, if_neg (show ¬ (w.ellMin ≤ ell ∧ ell ≤ w.ellMax) from fun h => hc h.1)]
    exact Props.GridModes.rot_zero ell R m

/-- **C61**: a rejected set of keywords is an error, and so are fewer than two times. -/
theorem transform_errors (spline : List (ℝ × ℂ) → ℝ → ℂ) (map2salm : List ℂ → Nat → Nat → Int → Int → Row ℂ) (a : Abd) (kw : Kw) :
    (∀ e, process a.ellMax kw = .error e → Verif.AbdModes.transform spline map2salm a kw = .error e) ∧
    (a.t.length < 2 → ∃ e, Verif.AbdModes.transform spline map2salm a kw = .error e) := by
  refine ⟨fun e he => ?_, fun h => ?_⟩
  · unfold Verif.AbdModes.transform
    rw [he]
    rfl
  · unfold Verif.AbdModes.transform
    rcases process a.ellMax kw with e | r
    · exact ⟨e, rfl⟩
    · simp only [ok_bind]
      rcases AbdTransform.transform spline (vabs (vec3 r.boost_velocity)) (alpha0 r) a.t ((boostedGrid r (2 * r.working_ell_max + 1).toNat).map (dirAt a r)) with e | p
      · exact ⟨e, rfl⟩
      · exact ⟨_, if_pos (.inl h)⟩

/-- Data with three times and all modes up to 2. -/
noncomputable def sample : Abd := Abd.mk [0, 1, 3] 2 fun _ => [fun i => (i : ℂ), fun i => (i : ℂ) * Complex.I, fun _ => 1]

theorem sample_good : Good sample where
  times := by decide
  increasing := by
    show List.Pairwise _ _
    norm_num [sample]
  rows _ := rfl
  ellMax := by decide

/-- A boost by half the speed of light with a rotation is accepted. -/
example : ∃ r, process sample.ellMax { boost_velocity := some [1/2, 0, 0], frame_rotation := some [0, 1, 0, 0] } = .ok r ∧ r.boost_velocity = [1/2, 0, 0] ∧ r.frame_rotation = (⟨0, 1, 0, 0⟩ : Quaternion ℝ) := by
  have hr := Props.GridModes.rotation_ok (kw := { boost_velocity := some [1/2, 0, 0], frame_rotation := some [0, 1, 0, 0] }) (R := (⟨0, 1, 0, 0⟩ : Quaternion ℝ)) (by
    have hn : Quaternion.normSq (⟨0, 1, 0, 0⟩ : Quaternion ℝ) = 1 := (Quaternion.normSq_def' _).trans (by norm_num)
    refine Or.inr ⟨(⟨0, 1, 0, 0⟩ : Quaternion ℝ), rfl, ?_, ?_⟩
    · rw [hn]
      norm_num
    · rw [hn, Real.sqrt_one, inv_one]
      exact (one_smul ℝ _).symm)
  have hv : velocity { boost_velocity := some [1/2, 0, 0], frame_rotation := some [0, 1, 0, 0] } = .ok [1/2, 0, 0] := by
    unfold velocity
    refine if_neg ?_
    rw [not_or, not_le]
    refine ⟨by simp, ?_⟩
    rw [Real.sqrt_lt' one_pos]
    norm_num
  refine ⟨⟨⟨0, 1, 0, 0⟩, [1/2, 0, 0], 1, fun _ => 0, 5, 2⟩, ?_, rfl, rfl⟩
  unfold process
  simp only [hr, hv]
  rfl

/-- The modes of `v · r`, as in `transform_general`. -/
example (v : Fin 3 → ℝ) : ∃ V : Int → Int → ℂ, ∀ R, Verif.GridMultiply.Spec.Unit R → expansion 0 1 V R = ((∑ i, v i * dir R i : ℝ) : ℂ) := ⟨vDotR v, fun R _ => Props.GridModes.vDotR_value v R⟩

end Verif.Props.AbdModes
