import Verif.Spec.Displaced
import Verif.Props.TiltedSpin
import Verif.Props.Cwwy
import Verif.Lemmas.BmsLorentz

/-!
# C106: what `map_to_superrest_frame` does to an object that is not at the origin
-/

namespace Verif.Props.Displaced
open Verif Verif.Charges Verif.Modes Verif.SuperrestLoop Verif.FrameErrors Verif.SuperrestMap Verif.Spec.SuperrestMap Verif.Spec.FrameErrors Verif.Spec.AbdFrame Verif.Spec.Moreschi Verif.Spec.SuperrestLoop
  Verif.Props.FrameErrors Verif.GridMultiply.Spec Verif.Spec.TiltedSpin Verif.Spec.ChargeCov Verif.Props.SuperrestMap Verif.Props.TiltedSpin Verif.Spec.Supertranslation
open Verif.Spec.Displaced (move superOf Quiet Placed Room Displaced Frames)
open Verif.Spec.Rotation (UnitRotor rot)
open Verif.Spec.Bms (Rotor)
open Verif.Spec.Balance (IsProduct)
open Verif.AbdTransform (rotateVec)

variable {c : Calls} {a a' : Data} {q : Quaternion ℝ} {s : ℝ} {x y n : Fin 3 → ℝ}

/-! ## The transformations -/

theorem vectorAs_zero : TransformKwargs.vectorAs 0 0 0 = (0, 0, 0) := by
  unfold TransformKwargs.vectorAs
  have h0 : (⟨0, 0⟩ : ℂ) = 0 := rfl
  rw [neg_zero, h0]
  simp

theorem move_zero (s : ℝ) (q : Quaternion ℝ) : move s 0 q = turn s q := by
  unfold move turn
  simp only [Pi.zero_apply, vectorAs_zero]
  congr 1
  funext i
  simp

theorem super_high (s : ℝ) (y : Fin 3 → ℝ) (q : Quaternion ℝ) (ell m : Int) (h2 : 2 ≤ ell) (hm : |m| ≤ ell) : superOf (move s y q) ell m = 0 := by
  have hm' := abs_le.1 hm
  have h4 : 4 ≤ ell * (ell + 1) + m := by nlinarith
  unfold superOf move
  simp only
  rw [if_neg (by omega), if_neg (by omega), if_neg (by omega), if_neg (by omega)]

theorem super_real (L : Int) (s : ℝ) (y : Fin 3 → ℝ) (q : Quaternion ℝ) : IsReal L (superOf (move s y q)) s y := by
  have h0 : superOf (move s y q) 0 0 = TransformKwargs.constantAs s := rfl
  have h1 : superOf (move s y q) 1 (-1) = (TransformKwargs.vectorAs (y 0) (y 1) (y 2)).1 := rfl
  have h2 : superOf (move s y q) 1 0 = (TransformKwargs.vectorAs (y 0) (y 1) (y 2)).2.1 := rfl
  have h3 : superOf (move s y q) 1 1 = (TransformKwargs.vectorAs (y 0) (y 1) (y 2)).2.2 := rfl
  have xy : ∀ x y : ℝ, (⟨x, y⟩ : ℂ) = x + y * Complex.I := fun x y => by apply Complex.ext <;> simp
  have three : ∀ m : Int, |m| ≤ 1 → m = -1 ∨ m = 0 ∨ m = 1 := fun m h => by have := abs_le.1 h; omega
  refine ⟨fun ell m e0 _ hm => ?_, h0, fun m hm => ?_⟩
  · by_cases e2 : 2 ≤ ell
    · unfold bar
      rw [super_high s y q ell m e2 hm, super_high s y q ell (-m) e2 (by rwa [abs_neg]), map_zero, mul_zero]
    · have : ell = 0 ∨ ell = 1 := by omega
      rcases this with rfl | rfl
      · have hm0 : m = 0 := by simpa using hm
        subst hm0
        unfold bar
        rw [neg_zero, h0]
        simp [TransformKwargs.constantAs]
      · rcases three m hm with rfl | rfl | rfl
        · unfold bar
          rw [neg_neg, h1, h3]
          unfold TransformKwargs.vectorAs
          simp only [xy]
          simp
          ring
        · unfold bar
          rw [neg_zero, h2]
          simp [TransformKwargs.vectorAs]
        · unfold bar
          rw [h1, h3]
          unfold TransformKwargs.vectorAs
          simp only [xy]
          simp
          ring
  · rw [Fin.sum_univ_three]
    rcases three m hm with rfl | rfl | rfl
    · rw [h1]
      unfold TransformKwargs.vectorAs
      simp only [xy]
      simp [Verif.Spec.Boost.chi]
      ring
    · rw [h2]
      simp [TransformKwargs.vectorAs, Verif.Spec.Boost.chi]
    · rw [h3]
      unfold TransformKwargs.vectorAs
      simp only [xy]
      simp [Verif.Spec.Boost.chi]
      ring

/-! ## The data -/

theorem placed_vec {E : ℝ} {p : Fin 4 → ℝ} (h : (Except.ok (List.ofFn p) : Py (List ℝ)) = .ok [E, 0, 0, 0]) : p 0 = E ∧ ∀ k : Fin 3, p k.succ = 0 := by
  injection h with h
  simp only [List.ofFn_succ, List.ofFn_zero, List.cons.injEq, and_true] at h
  refine ⟨h.1, fun k => ?_⟩
  fin_cases k
  · exact h.2.1
  · exact h.2.2.1
  · exact h.2.2.2

theorem placed_com {G x : Fin 3 → ℝ} {E : ℝ} (h : (Except.ok (List.ofFn G) : Py (List ℝ)) = .ok [E * x 0, E * x 1, E * x 2]) : G = E • x := by
  injection h with h
  rw [ofFn3] at h
  simp only [List.cons.injEq, and_true] at h
  funext k
  fin_cases k
  · exact h.1
  · exact h.2.1
  · exact h.2.2

theorem rotateVec_zero (q : Quaternion ℝ) : rotateVec q 0 = 0 := by
  have := Verif.Lemmas.Bms.rotateVec_smul q 0 0
  rwa [zero_smul, zero_smul] at this

/-- The charges of data at one time in the rotated frame. -/
theorem rotated_at {L : Int} {ext : Ext} (hmul : IsProduct L ext.mul) (hL : 1 ≤ L) (hq : UnitRotor q) {d d' : Abd} (h : Rotated L q s d' d) {E : ℝ} (h1 : bondiFourMomentum ext.mul ext.dflt d = .ok [E, 0, 0, 0])
    (h2 : bondiCoMCharge ext.mul d = .ok [E * x 0, E * x 1, E * x 2]) :
    bondiFourMomentum ext.mul ext.dflt d' = .ok [E, 0, 0, 0] ∧ bondiCoMCharge ext.mul d' = .ok [E * rotateVec (star q) x 0, E * rotateVec (star q) x 1, E * rotateVec (star q) x 2] := by
  obtain ⟨E', p', f1, f2⟩ := Verif.Props.ChargeCov.four_momentum_rotated hmul hL hq h ext.dflt
  obtain ⟨G, N, p, E'', g1, -, -, g2, -⟩ := Verif.Props.ChargeCov.CoM_rotated hmul hL hq h ext.dflt
  rw [g1] at h2
  have hG := placed_com h2
  rw [f1, ofFn3] at h1
  injection h1 with h1
  simp only [List.cons.injEq, and_true] at h1
  have hp : p' = 0 := by
    funext k
    fin_cases k
    · exact h1.2.1
    · exact h1.2.2.1
    · exact h1.2.2.2
  rw [f2, g2, hp, hG, rotateVec_zero, Verif.Lemmas.Bms.rotateVec_smul, h1.1, ofFn3, ofFn3]
  exact ⟨rfl, rfl⟩

theorem moved_placed (hmul : IsProduct a.ellMax c.mul) (hL : 1 ≤ a.ellMax) (hq : UnitRotor q) (h : Moved q s a' a) (hx : Placed c.toExt a x) : Placed c.toExt a' (rotateVec (star q) x) := by
  intro d' hd'
  obtain ⟨d, hd, hr⟩ := forall₂_left h.2 d' hd'
  obtain ⟨E, hE, h1, h2⟩ := hx d hd
  obtain ⟨k1, k2⟩ := rotated_at hmul hL hq hr h1 h2
  exact ⟨E, hE, k1, k2⟩

theorem cross_zero (y : Fin 3 → ℝ) (i : Fin 3) : cross y (fun _ => 0) i = 0 := by
  fin_cases i <;> simp [cross]

/-- The charges of data at one time in the translated frame. -/
theorem translated_at {L : Int} {ext : Ext} (hmul : IsProduct L ext.mul) (hL : 1 ≤ L) {q : Quaternion ℝ} {d d' : Abd} (hd : Nonradiative L d) (h : Supertranslated L (superOf (move s y q)) d d') {E : ℝ}
    (h1 : bondiFourMomentum ext.mul ext.dflt d = .ok [E, 0, 0, 0]) (h2 : bondiCoMCharge ext.mul d = .ok [E * x 0, E * x 1, E * x 2]) :
    bondiFourMomentum ext.mul ext.dflt d' = .ok [E, 0, 0, 0] ∧ bondiCoMCharge ext.mul d' = .ok [E * (x + y) 0, E * (x + y) 1, E * (x + y) 2] ∧ bondiAngularMomentum ext.mul d' = bondiAngularMomentum ext.mul d := by
  obtain ⟨J, J', G, G', p, j1, j2, g1, g2, p1, p2, e1, e2⟩ := Verif.Props.Cwwy.translation hL hmul hd (super_real L s y q) h (fun ell m h _ hm => super_high s y q ell m h hm) ext.dflt
  rw [p1] at h1
  rw [g1] at h2
  obtain ⟨k1, k2⟩ := placed_vec h1
  have k3 := placed_com h2
  have eJ : J' = J := by
    funext i
    rw [e1 i]
    simp only [k2, cross_zero, add_zero]
  have eG : G' = E • (x + y) := by
    funext i
    rw [e2 i, k2, k1, k3]
    simp only [Pi.smul_apply, smul_eq_mul, Pi.add_apply]
    ring
  refine ⟨by rw [p2, ← p1, p1, h1], ?_, by rw [j2, j1, eJ]⟩
  rw [g2, eG, ofFn3]
  rfl

theorem displaced_placed (hmul : IsProduct a.ellMax c.mul) (hL : 1 ≤ a.ellMax) (hq : UnitRotor q) (hQ : Quiet a) (h : Displaced (move s y q) a' a) (hx : Placed c.toExt a x) : Placed c.toExt a' (rotateVec (star q) (x + y)) := by
  intro d' hd'
  obtain ⟨d, hd, mid, hm, hr⟩ := h.data d' hd'
  obtain ⟨E, hE, h1, h2⟩ := hx d hd
  obtain ⟨k1, k2, -⟩ := translated_at hmul hL (hQ d hd) hm h1 h2
  obtain ⟨k3, k4⟩ := rotated_at (ext := c.toExt) hmul hL hq hr k1 k2
  exact ⟨E, hE, k3, k4⟩

theorem proper_of {ext : Ext} (h1 : 1 ≤ a.ellMax) (h2 : 2 ≤ a.at'.length) (h3 : (times a).Pairwise (· < ·)) (hx : Placed ext a x) : Spec.FrameErrors.Proper ext a := by
  refine ⟨h2, h3, fun d hd => ?_, h1⟩
  obtain ⟨E, hE, h, -⟩ := hx d hd
  exact ⟨E, 0, 0, 0, h, hE, by simpa using pow_pos hE 2⟩

theorem spin_at_rest (N N' J : Fin 3 → ℝ) (E : ℝ) : dimensionlessSpin N J E ![0, 0, 0] = dimensionlessSpin N' J E ![0, 0, 0] := by
  funext i
  fin_cases i <;> simp [dimensionlessSpin]

theorem displaced_directed (hmul : IsProduct a.ellMax c.mul) (hL : 1 ≤ a.ellMax) (hq : UnitRotor q) (hQ : Quiet a) (h : Displaced (move s y q) a' a) (hx : Placed c.toExt a x) (hn : Directed c.toExt a n) :
    Directed c.toExt a' (rotateVec (star q) n) := by
  intro d' hd'
  obtain ⟨d, hd, mid, hm, hr⟩ := h.data d' hd'
  obtain ⟨E, hE, h1, h2⟩ := hx d hd
  obtain ⟨k1, k2, k3⟩ := translated_at hmul hL (hQ d hd) hm h1 h2
  obtain ⟨k, hk, N1, N2, N3, J1, J2, J3, E', p1, p2, p3, e1, e2, e3, e4⟩ := hn d hd
  have e3' := e3
  rw [h1] at e3
  cases e3
  obtain ⟨M1, M2, M3, hM⟩ := boost_ok (ext := c.toExt) mid
  have hmid : Directed c.toExt ⟨[mid], a.ellMax⟩ n := by
    intro d0 hd0
    obtain rfl := List.mem_singleton.1 hd0
    refine ⟨k, hk, M1, M2, M3, J1, J2, J3, E, 0, 0, 0, hM, k3.trans e2, k1, ?_⟩
    rw [e4]
    exact spin_at_rest _ _ _ _
  exact moved_directed (a := ⟨[mid], a.ellMax⟩) (a' := ⟨[d'], a.ellMax⟩) (s := 0) hmul hL hq ⟨rfl, .cons hr .nil⟩ hmid d' (by simp)

theorem quiet_product {L : Int} {mul : Int → Int → Modes → Modes → Modes} (hmul : IsProduct L mul) {d : Abd} (hn : ∀ ell m, d.sigmaDot ell m = 0) (ell m : Int) (h0 : 0 ≤ ell) (hm : |m| ≤ ell) :
    mul 2 (-2) d.sigma (bar 2 d.sigmaDot) ell m = 0 := by
  have z : bar 2 d.sigmaDot = fun _ _ => 0 := by
    funext ell m
    unfold bar
    rw [hn, map_zero, mul_zero]
  rw [hmul 2 (-2) _ _ ell m (by norm_num; exact h0) hm, z]
  have h0 : ∀ θ φ, Verif.Spec.Sphere.field (-2) 0 L (fun _ _ => 0) θ φ = 0 := by
    intro θ φ
    simp [Verif.Spec.Sphere.field]
  simp only [h0, mul_zero]
  simp [Verif.Spec.Sphere.solid]

theorem eth_low (f : Modes) (ell m : Int) (h0 : 0 ≤ ell) (h1 : ell < 2) : ethGHP (-2) f ell m = 0 := by
  have : ell = 0 ∨ ell = 1 := by omega
  have e : √((((ell - -2) * (ell + -2 + 1) : Int) : ℝ) / 2) = 0 := by
    refine Real.sqrt_eq_zero_of_nonpos ?_
    rcases this with rfl | rfl <;> norm_num
  show ((√((((ell - -2) * (ell + -2 + 1) : Int) : ℝ) / 2) : ℝ) : ℂ) * f ell m = 0
  rw [e, Complex.ofReal_zero, zero_mul]

theorem displaced_plain (hmul : IsProduct a.ellMax c.mul) (hprod : ∀ d, c.prod d = c.mul 2 (-2) d.sigma (bar 2 d.sigmaDot)) (hL : 1 ≤ a.ellMax) (hq : UnitRotor q) (hQ : Quiet a) (h : Displaced (move s y q) a' a)
    (hn : Plain c.toExt a) : Plain c.toExt a' := by
  obtain ⟨M, hM, hn⟩ := hn
  have key : ∀ d' ∈ a'.at', ∃ f, supermomentum (c.prod d') d' "moreschi" false = .ok f ∧ ∀ ell m, 0 ≤ ell → ell ≤ a'.ellMax → |m| ≤ ell → f ell m = if ell = 0 then (-M : ℂ) else 0 := by
    intro d' hd'
    obtain ⟨d, hd, mid, hm, hr⟩ := h.data d' hd'
    obtain ⟨f, f1, f2⟩ := hn d hd
    have f3 : supermomentum (c.prod d) d "moreschi" false = .ok fun ell m => d.psi2 ell m + c.prod d ell m + ethGHP (-1) (ethGHP (-2) (bar 2 d.sigma)) ell m := rfl
    have g3 : supermomentum (c.prod mid) mid "moreschi" false = .ok fun ell m => mid.psi2 ell m + c.prod mid ell m + ethGHP (-1) (ethGHP (-2) (bar 2 mid.sigma)) ell m := rfl
    rw [f3] at f1
    cases f1
    have same : ∀ ell m, 0 ≤ ell → ell ≤ a.ellMax → |m| ≤ ell → mid.psi2 ell m + c.prod mid ell m + ethGHP (-1) (ethGHP (-2) (bar 2 mid.sigma)) ell m = if ell = 0 then (-M : ℂ) else 0 := by
      intro ell m h0 h1 hl
      rw [← f2 ell m h0 h1 hl]
      beta_reduce
      rw [hm.psi2 ell m h0 h1 hl, hprod, hprod, quiet_product hmul hm.news ell m h0 hl, quiet_product hmul (hQ d hd).news ell m h0 hl]
      congr 1
      by_cases h2 : 2 ≤ ell
      · have hl' : |(-m)| ≤ ell := by rwa [abs_neg]
        have e : ethGHP 1 (ethGHP 0 (superOf (move s y q))) ell (-m) = 0 := by
          unfold ethGHP
          rw [super_high s y q ell (-m) h2 hl', mul_zero, mul_zero]
        unfold ethGHP bar
        rw [hm.sigma ell (-m) h2 h1 hl', e, sub_zero]
      · have z := fun g : Modes => eth_low g ell m h0 (by omega)
        have z' : ∀ g : Modes, ethGHP (-1) (ethGHP (-2) g) ell m = 0 := by
          intro g
          show _ * ethGHP (-2) g ell m = 0
          rw [z, mul_zero]
        rw [z', z']
    obtain ⟨g, g', r1, r2, r3⟩ := Verif.Props.ChargeCov.supermomentum_rotated hmul hL hq hr "moreschi" (by simp [Verif.Props.Charges.names]) false
    rw [← hprod, g3] at r1
    cases r1
    refine ⟨g', by rw [hprod d', r2], fun ell m h0 h1 hl => ?_⟩
    rw [h.ell] at h1
    rw [r3 ell m (by simpa using h0) h1 hl]
    by_cases he : ell = 0
    · subst he
      have hm0 : m = 0 := by simpa using hl
      rw [hm0, rot_scalar q]
      exact same 0 0 le_rfl h1 (by simp)
    · rw [if_neg he]
      unfold rot
      refine Finset.sum_eq_zero fun m' hm' => ?_
      beta_reduce
      rw [same ell m' h0 h1 (abs_le.2 (Finset.mem_Icc.1 hm')), if_neg he, zero_mul]
  exact ⟨M, hM, key⟩

/-! ## The solver -/

theorem centre_placed {ext : Calls} (hx : Placed ext.toExt a x) : a.at'.mapM (centre ext) = .ok (a.at'.map fun _ => some x) := by
  have : ∀ l : List Abd, (∀ d ∈ l, d ∈ a.at') → l.mapM (centre ext) = .ok (l.map fun _ => some x) := by
    intro l hl
    induction l with
    | nil => rfl
    | cons d l ih =>
      obtain ⟨E, hE, h1, h2⟩ := hx d (hl d (by simp))
      have e : centre ext d = .ok (some x) := by
        unfold centre
        rw [h2, ok_bind, h1, ok_bind]
        show pure (if E = 0 then none else some fun i => vec [E * x 0, E * x 1, E * x 2] i / E) = _
        rw [if_neg hE.ne', vec_eq]
        have : (fun i => (![E * x 0, E * x 1, E * x 2] : Fin 3 → ℝ) i / E) = x := by
          funext i
          fin_cases i <;> (simp; field_simp)
        rw [this]
        rfl
      rw [List.mapM_cons, e, ok_bind, ih fun d' hd' => hl d' (by simp [hd']), ok_bind]
      rfl
  exact this _ fun _ h => h

theorem vectorAs_neg (u v w : ℝ) : TransformKwargs.vectorAs (-u) (-v) (-w) = (-(TransformKwargs.vectorAs u v w).1, -(TransformKwargs.vectorAs u v w).2.1, -(TransformKwargs.vectorAs u v w).2.2) := by
  have xy : ∀ x y : ℝ, (⟨x, y⟩ : ℂ) = x + y * Complex.I := fun x y => by apply Complex.ext <;> simp
  unfold TransformKwargs.vectorAs
  simp only [xy]
  refine Prod.ext ?_ (Prod.ext ?_ ?_)
  · push_cast
    ring
  · push_cast
    ring
  · push_cast
    ring

theorem com_from (hp : Spec.FrameErrors.Proper c.toExt a) (x : Fin 3 → ℝ) : comFrom (a.at'.map fun _ => some x, times a) = .ok (move 0 (-x) 1) := by
  obtain ⟨u, v, hu, hv, huv, hne⟩ := length_times hp
  have mem : u ∈ times a ∧ v ∈ times a := by
    unfold times
    obtain ⟨z, l, hl⟩ := List.exists_cons_of_ne_nil hne
    rw [hl] at hu hv ⊢
    refine ⟨by rw [← hu]; simp, ?_⟩
    rw [← hv, List.getLastD_cons, List.getLastD_eq_getLast?]
    rcases h : l.getLast? with _ | z
    · simp
    · have := List.mem_of_getLast? h
      simp [this]
  have fit : ∀ i : Fin 3, Superrest.polyfit (times a) ((a.at'.map fun _ => some x).map fun v => v.getD 0 i) = (0, x i) := by
    intro i
    have := Verif.Props.Superrest.polyfit_exact (times a) u v mem.1 mem.2 huv.ne (x i) 0
    rw [← this]
    congr 1
    unfold times
    rw [List.map_map, List.map_map]
    apply List.map_congr_left
    intro d _
    simp
  unfold comFrom
  rw [if_neg (show ¬ times a = [] from hne), if_neg (by simp)]
  simp only [fit]
  congr 1
  unfold move
  simp only [Pi.neg_apply, vectorAs_neg]
  congr 1
  funext i
  by_cases h0 : i = 0
  · subst h0
    simp [TransformKwargs.constantAs]
  · rw [if_neg h0]

/-- The solver for the center of mass needs one pass. -/
theorem com_move (hmul : IsProduct a.ellMax c.mul) (hf : Frames c) (hp : Spec.FrameErrors.Proper c.toExt a) (hI : PositiveIntegral c.integrate) (hQ : Quiet a) (hx0 : x ≠ 0) (hx : Placed c.toExt a x) (hroom : Room (Spec.Displaced.length x) (times a))
    {N : Int} (hN : 0 < N) {tol : Err} (htol : (Err.fin 0).lt tol) : SuperrestLoop.com (comEnv c) a N tol = .ok (move 0 (-x) 1, [.inf, .fin 0]) := by
  have u1 := Verif.Rotation.unit_one
  have hlen : Spec.Displaced.length (-x) = Spec.Displaced.length x := by simp [Spec.Displaced.length]
  obtain ⟨b, b1, b2⟩ := hf.transform a 0 (-x) 1 (neg_ne_zero.2 hx0) u1 hQ hp.inc (by rw [hlen]; exact hroom)
  have hxb := displaced_placed hmul hp.ell u1 hQ b2 hx
  rw [add_neg_cancel, rotateVec_zero] at hxb
  have hpb := proper_of (by rw [b2.ell]; exact hp.ell) b2.two b2.inc hxb
  have ch : ∀ {a x}, Placed c.toExt a x → (comEnv c).charge a = .ok (a.at'.map fun _ => some x, times a) := by
    intro a x hx
    show (a.at'.mapM (centre c) >>= _) = _
    rw [centre_placed hx]
    rfl
  have hcomp : c.compose (move 0 (-x) 1) Tr.one = .ok (move 0 (-x) 1) := by
    have := hf.compose 0 0 (-x) 0 1 1 rotor_one rotor_one (by rw [one_mul]; exact rotor_one)
    rwa [add_zero, one_mul, zero_add, Verif.Props.AbdTransform.rotateVec_one, move_zero, turn_one] at this
  have hclean : cleanCom (move 0 (-x) 1) = move 0 (-x) 1 := by
    unfold cleanCom move
    congr 1
    funext i
    by_cases h4 : 4 ≤ i
    · rw [if_pos h4]
      rw [if_neg (by omega), if_neg (by omega), if_neg (by omega), if_neg (by omega)]
    · rw [if_neg h4]
  have herr : (comEnv c).error b (b.at'.map fun _ => some 0, times b) = .fin 0 := by
    show orNan (average c.toExt ((b.at'.map fun _ => some (0 : Fin 3 → ℝ)).map fun v => v.map norm3) (times b)) = _
    have e : (b.at'.map fun _ => some (0 : Fin 3 → ℝ)).map (fun v => v.map norm3) = b.at'.map fun _ => some 0 := by
      rw [List.map_map]
      apply List.map_congr_left
      intro d _
      exact congrArg some ((norm3_zero 0).2 rfl)
    rw [e, average_zero hpb hI]
    rfl
  have hpass : pass (comEnv c) cleanCom a 0 (Tr.one, none) = .ok ((move 0 (-x) 1, some (b.at'.map fun _ => some 0, times b)), .fin 0) := by
    unfold pass present
    rw [if_pos rfl, ch hx, ok_bind]
    show (comFrom _ >>= _) = _
    rw [com_from hp x, ok_bind]
    show (c.compose _ Tr.one >>= _) = _
    rw [hcomp, ok_bind, hclean]
    show (c.transform a _ >>= _) = _
    rw [b1, ok_bind, ch hxb, ok_bind, herr]
    rfl
  exact run_one hN htol hpass

/-! ## The function -/

/-- The steps of a pass, if the transformation found so far depends only on whether there was a rotation and a translation. -/
theorem fold_flags {o : Outer Data Tr} {w : Data} (b : Bool → Bool → Tr)
    (hstep : ∀ r m d st, st = .supertranslation ∨ st = .rotation ∨ st = .com → o.transform w (b r m) = .ok d →
      ∃ T d', o.solve st d = .ok T ∧ o.compose T (b r m) = .ok (b (r || decide (st = .rotation)) (m || decide (st = .com))) ∧ o.transform w (b (r || decide (st = .rotation)) (m || decide (st = .com))) = .ok d')
    (order : List Step) (hk : ∀ st ∈ order, st = .supertranslation ∨ st = .rotation ∨ st = .com) (r m : Bool) (v : SuperrestLoop.Inner Data Tr) (hb : v.bms = b r m) (ha : o.transform w (b r m) = .ok v.abd) (hv : v.rel = .start) :
    ∃ new d', order.foldlM (SuperrestLoop.inner o false w) v = .ok { new := new, bms := b (r || decide (Step.rotation ∈ order)) (m || decide (Step.com ∈ order)), abd := d', rel := .start } ∧
      o.transform w (b (r || decide (Step.rotation ∈ order)) (m || decide (Step.com ∈ order))) = .ok d' := by
  induction order generalizing v r m with
  | nil =>
    refine ⟨v.new, v.abd, ?_, by simpa using ha⟩
    simp only [List.foldlM_nil, List.not_mem_nil, decide_false, Bool.or_false, ← hb, ← hv]
    rfl
  | cons st l ih =>
    have hst := hk st (by simp)
    obtain ⟨T, d', h1, h2, h3⟩ := hstep r m v.abd st hst ha
    rw [List.foldlM_cons, inner_ok hst h1 (hb ▸ h2) h3, ok_bind]
    have e1 : (r || decide (Step.rotation ∈ st :: l)) = ((r || decide (st = .rotation)) || decide (Step.rotation ∈ l)) := by
      simp [List.mem_cons, eq_comm, Bool.or_assoc]
    have e2 : (m || decide (Step.com ∈ st :: l)) = ((m || decide (st = .com)) || decide (Step.com ∈ l)) := by
      simp [List.mem_cons, eq_comm, Bool.or_assoc]
    rw [e1, e2]
    exact ih (fun s' hs' => hk s' (by simp [hs'])) _ _ _ rfl h3 hv

theorem centered_of_placed {ext : Ext} (h : Placed ext a 0) : Centered ext a := by
  intro d hd
  obtain ⟨E, -, -, h⟩ := h d hd
  simpa using h

theorem room_shift {r : ℝ} {t : List ℝ} (s : ℝ) (h : Room r t) : Room r (t.map (· - s)) := by
  obtain ⟨t1, h1, u, hu, v, hv, t2, h2, k1, k2, k3⟩ := h
  exact ⟨t1 - s, List.mem_map_of_mem h1, u - s, List.mem_map_of_mem hu, v - s, List.mem_map_of_mem hv, t2 - s, List.mem_map_of_mem h2, by linarith, by linarith, by linarith⟩

theorem room_length {r : ℝ} (h : Room r (times a)) : 2 ≤ a.at'.length := by
  obtain ⟨t1, h1, u, hu, v, hv, t2, h2, k1, k2, k3⟩ := h
  have e : (times a).length = a.at'.length := by
    unfold times
    rw [List.length_map]
  rw [← e]
  generalize times a = l at hu hv
  match l, hu, hv with
  | [z], hu, hv =>
    rw [List.mem_singleton] at hu hv
    rw [hu, hv] at k2
    exact absurd k2 (lt_irrefl z)
  | _ :: _ :: l, _, _ => simp

theorem rotateVec_length {q : Quaternion ℝ} (hq : UnitRotor q) (x : Fin 3 → ℝ) : Spec.Displaced.length (rotateVec q x) = Spec.Displaced.length x := by
  have := Verif.Props.GridModes.rotateVec_length q hq x
  rw [Fin.sum_univ_three, Fin.sum_univ_three] at this
  unfold Spec.Displaced.length
  rw [this]

theorem rotateVec_star {q : Quaternion ℝ} (hq : UnitRotor q) (x : Fin 3 → ℝ) : rotateVec q (rotateVec (star q) x) = x := by
  have := Verif.Rotation.unit_left (Verif.Rotation.unit_star hq)
  rw [star_star] at this
  rw [← Verif.Props.AbdTransform.rotateVec_mul, this, Verif.Props.AbdTransform.rotateVec_one]

section
variable (hE : Exact c.map2salm) (hs : ConstSpline c.spline) (hI : PositiveIntegral c.integrate) (hprod : ∀ d, c.prod d = c.mul 2 (-2) d.sigma (bar 2 d.sigmaDot)) (hf : Frames c) {o : Opts} (ho : Sensible o) (order : List Step)
  (hk : ∀ s ∈ order, s = .supertranslation ∨ s = .rotation ∨ s = .com) (hrot : Step.rotation ∈ order) (hcom : Step.com ∈ order) (t0 padding : ℝ) (abd w : Data) (hw : window t0 padding abd = .ok w) (hmul : IsProduct abd.ellMax c.mul)
  (hL : 1 ≤ abd.ellMax) (hinc : (times abd).Pairwise (· < ·)) (hQ : Quiet abd)
include hE hs hI hprod hf ho hk hrot hcom hw hmul hL hinc hQ

/-- C106: an object at rest at the place `x`, with a spin in any direction `n` but `-z`, is taken to the superrest frame by `map_to_superrest_frame` in one pass, with any order of the solvers that contains those for the rotation and the center of mass:
the transformation found is the translation by `-x` and a rotation that takes the `z` axis to `n`, whatever the order.  The errors are 0. -/
theorem displaced (x n : Fin 3 → ℝ) (hx0 : x ≠ 0) (hx : Placed c.toExt w x) (hroom : Room (Spec.Displaced.length x) (times w)) (hpl : Plain c.toExt w) (hn : n 0 ^ 2 + n 1 ^ 2 + n 2 ^ 2 = 1) (hd : Directed c.toExt w n) (hz : n ≠ ![0, 0, -1]) :
    ∃ q abd', UnitRotor q ∧ rotateVec q ![0, 0, 1] = n ∧ c.transform abd (move 0 (-x) q) = .ok abd' ∧ Displaced (move 0 (-x) q) abd' abd ∧
      mapToSuperrest c o order t0 padding abd = .ok (abd', move 0 (-x) q, .tuple (.fin 0) (.fin 0) (.fin 0)) := by
  have hn1 : norm3 n = 1 := by
    unfold norm3
    rw [hn, Real.sqrt_one]
  have hv : AbdTransform.vabs n = 1 := hn1
  obtain ⟨q, q1, q0, q3, q4⟩ := Verif.Props.Superrest.spin_rotor n (by
    rintro ⟨k, hk0, rfl⟩
    apply hz
    have : k = 1 := by
      have h : k ^ 2 = 1 := by simpa using hn
      nlinarith [sq_nonneg (k - 1)]
    rw [this])
  have q2 : UnitRotor q := q0.1
  rw [hv, inv_one, one_smul] at q3
  rw [hv] at q4
  have u1 := Verif.Rotation.unit_one
  -- the window
  have hsub : w.ellMax = abd.ellMax ∧ w.at'.Sublist abd.at' := by
    unfold window at hw
    generalize AbdFrame.nearest (times abd) (t0 - (padding + 200)) = A at hw
    generalize AbdFrame.nearest (times abd) (t0 + (padding + 200)) = B at hw
    rcases A with e | i
    · cases hw
    rcases B with e | j
    · cases hw
    cases hw
    exact ⟨rfl, (List.take_sublist _ _).trans (List.drop_sublist _ _)⟩
  have hincw : (times w).Pairwise (· < ·) := hinc.sublist (hsub.2.map _)
  have hQw : Quiet w := fun d h => by
    rw [hsub.1]
    exact hQ d (hsub.2.subset h)
  have hmulw : IsProduct w.ellMax c.mul := by
    rw [hsub.1]
    exact hmul
  have hLw : 1 ≤ w.ellMax := by
    rw [hsub.1]
    exact hL
  have hpw := proper_of hLw (room_length hroom) hincw hx
  have hlen : Spec.Displaced.length (-x) = Spec.Displaced.length x := by simp [Spec.Displaced.length]
  have hroomA : Room (Spec.Displaced.length (-x)) (times abd) := by
    rw [hlen]
    obtain ⟨t1, h1, u, hu, v, hv, t2, h2, k⟩ := hroom
    have m := (hsub.2.map (·.t)).subset
    exact ⟨t1, m h1, u, m hu, v, m hv, t2, m h2, k⟩
  obtain ⟨abd', f1, f2⟩ := hf.transform abd 0 (-x) q (neg_ne_zero.2 hx0) q2 hQ hinc hroomA
  -- the states
  set rr : Bool → Quaternion ℝ := fun r => if r then q else 1 with hrr
  set yy : Bool → Fin 3 → ℝ := fun m => if m then -x else 0 with hyy
  set b : Bool → Bool → Tr := fun r m => move t0 (yy m) (rr r) with hb
  have ur' : ∀ r, Rotor (rr r) := by
    intro r
    cases r
    · exact rotor_one
    · exact q0
  have ur : ∀ r, UnitRotor (rr r) := fun r => (ur' r).1
  have state : ∀ r m, ∃ d, c.transform w (b r m) = .ok d ∧ d.ellMax = w.ellMax ∧ Quiet d ∧ Plain c.toExt d ∧ Placed c.toExt d (rotateVec (star (rr r)) (x + yy m)) ∧ Directed c.toExt d (rotateVec (star (rr r)) n) ∧
      Spec.FrameErrors.Proper c.toExt d ∧ (m = false → Room (Spec.Displaced.length x) (times d)) := by
    intro r m
    cases m
    · have e : b r false = turn t0 (rr r) := move_zero _ _
      obtain ⟨d, d1, d2⟩ := hf.turns.transform w t0 (rr r) (ur r)
      have hxd := moved_placed hmulw hLw (ur r) d2 hx
      refine ⟨d, by rw [e]; exact d1, d2.1, hf.quiet w t0 (rr r) d (ur r) hQw d1, moved_plain hmulw hprod hLw (ur r) d2 hpl, ?_, moved_directed hmulw hLw (ur r) d2 hd, moved_proper hmulw (ur r) d2 hpw, fun _ => ?_⟩
      · show Placed c.toExt d (rotateVec (star (rr r)) (x + 0))
        rwa [add_zero]
      · have := room_shift t0 hroom
        unfold times at this ⊢
        rwa [moved_times d2]
    · obtain ⟨d, d1, d2⟩ := hf.transform w t0 (-x) (rr r) (neg_ne_zero.2 hx0) (ur r) hQw hincw (by rw [hlen]; exact hroom)
      have hxd := displaced_placed hmulw hLw (ur r) hQw d2 hx
      exact ⟨d, d1, d2.ell, d2.quiet, displaced_plain hmulw hprod hLw (ur r) hQw d2 hpl, hxd, displaced_directed hmulw hLw (ur r) hQw d2 hx hd, proper_of (by rw [d2.ell]; exact hLw) d2.two d2.inc hxd, fun h => by cases h⟩
  have one : Tr.one = move 0 0 1 := by rw [move_zero, turn_one]
  have c1 : ∀ r m, c.compose Tr.one (b r m) = .ok (b r m) := by
    intro r m
    have := hf.compose 0 t0 0 (yy m) 1 (rr r) rotor_one (ur' r) (by rw [mul_one]; exact ur' r)
    rwa [zero_add, rotateVec_zero, add_zero, mul_one, ← one] at this
  have h11 : c.compose Tr.one Tr.one = .ok Tr.one := by
    have := hf.compose 0 0 0 0 1 1 rotor_one rotor_one (by rw [one_mul]; exact rotor_one)
    rwa [zero_add, rotateVec_zero, add_zero, mul_one, ← one] at this
  obtain ⟨x1, tx1, px1⟩ := ho.comTol
  obtain ⟨x2, tx2, px2⟩ := ho.rotationTol
  obtain ⟨x3, tx3, px3⟩ := ho.supertranslationTol
  have step : ∀ r m d st, st = .supertranslation ∨ st = .rotation ∨ st = .com → (calls c o).transform w (b r m) = .ok d →
      ∃ T d', (calls c o).solve st d = .ok T ∧ (calls c o).compose T (b r m) = .ok (b (r || decide (st = .rotation)) (m || decide (st = .com))) ∧ (calls c o).transform w (b (r || decide (st = .rotation)) (m || decide (st = .com))) = .ok d' := by
    intro r m d st hst htr
    obtain ⟨d0, s1, s2, s3, s4, s5, s6, s7, s8⟩ := state r m
    have e : d0 = d := by
      have htr : c.transform w (b r m) = .ok d := htr
      rw [s1] at htr
      injection htr
    subst e
    obtain ⟨d', t1, -⟩ := state (r || decide (st = .rotation)) (m || decide (st = .com))
    have hmd : IsProduct d0.ellMax c.mul := by
      rw [s2]
      exact hmulw
    suffices ∃ T, (calls c o).solve st d0 = .ok T ∧ c.compose T (b r m) = .ok (b (r || decide (st = .rotation)) (m || decide (st = .com))) by
      obtain ⟨T, k1, k2⟩ := this
      exact ⟨T, d', k1, k2, t1⟩
    rcases hst with rfl | rfl | rfl
    · obtain ⟨f, hf1, hf2⟩ := plain_stationary s4
      refine ⟨Tr.one, ?_, by simpa using c1 r m⟩
      show SuperrestMap.supertranslation c o.supertranslation o.supertranslationTol d0 = _
      rw [tx3]
      exact supertranslation_one hE hs s7 hf1 (fun ell m h2 _ _ => hf2 ell m (by omega)) ho.supertranslation px3
    · cases r
      · refine ⟨turn 0 q, ?_, ?_⟩
        · show (SuperrestLoop.rotation (rotationEnv c) d0 o.rotation o.rotationTol >>= _) = _
          have s6' : Directed c.toExt d0 n := by
            have : rr false = 1 := rfl
            rwa [this, star_one, Verif.Props.AbdTransform.rotateVec_one] at s6
          rw [rotation_turn hmd hf.turns s7 hI hn1 s6' q1 q0 q4 ho.rotation (tol := o.rotationTol) (by rw [tx2]; exact px2)]
          rfl
        · have := hf.compose 0 t0 0 (yy m) q 1 q0 rotor_one (by rw [one_mul]; exact q0)
          rw [zero_add, rotateVec_zero, add_zero, one_mul, move_zero] at this
          have e : b (false || decide (Step.rotation = .rotation)) (m || decide (Step.rotation = .com)) = b true m := by simp
          rw [e]
          exact this
      · refine ⟨Tr.one, ?_, by simpa using c1 true m⟩
        have s6' : Directed c.toExt d0 ![0, 0, 1] := by
          have : rr true = q := rfl
          rwa [this, q4] at s6
        show (SuperrestLoop.rotation (rotationEnv c) d0 o.rotation o.rotationTol >>= _) = _
        rw [rotation_one s7 hI (upright_of_directed s6') h11 (hf.turns.same d0) ho.rotation (tol := o.rotationTol) (by rw [tx2]; exact px2)]
        rfl
    · cases m
      · have s5' : Placed c.toExt d0 (rotateVec (star (rr r)) x) := by
          have : yy false = 0 := rfl
          rwa [this, add_zero] at s5
        refine ⟨move 0 (-(rotateVec (star (rr r)) x)) 1, ?_, ?_⟩
        · show (SuperrestLoop.com (comEnv c) d0 o.com o.comTol >>= _) = _
          rw [com_move hmd hf s7 hI s3 (fun h => hx0 (by rw [← rotateVec_star (ur r) x, h, rotateVec_zero])) s5' (by rw [rotateVec_length (Verif.Rotation.unit_star (ur r))]; exact s8 rfl) ho.com (tol := o.comTol) (by rw [tx1]; exact px1)]
          rfl
        · have := hf.compose 0 t0 (-(rotateVec (star (rr r)) x)) 0 1 (rr r) rotor_one (ur' r) (by rw [mul_one]; exact ur' r)
          rw [zero_add, Verif.Lemmas.Bms.rotateVec_neg, rotateVec_star (ur r), zero_add, mul_one] at this
          have e : b (r || decide (Step.com = .rotation)) (false || decide (Step.com = .com)) = b r true := by simp
          rw [e]
          exact this
      · refine ⟨Tr.one, ?_, by simpa using c1 r true⟩
        have s5' : Placed c.toExt d0 0 := by
          have : yy true = -x := rfl
          rwa [this, add_neg_cancel, rotateVec_zero] at s5
        show (SuperrestLoop.com (comEnv c) d0 o.com o.comTol >>= _) = _
        rw [com_one s7 hI (centered_of_placed s5') h11 (hf.turns.same d0) ho.com (tol := o.comTol) (by rw [tx1]; exact px1)]
        rfl
  obtain ⟨d, d1, -⟩ := state false false
  obtain ⟨new, d', hfold, e1⟩ := fold_flags (o := calls c o) (w := w) b step order hk false false { new := none, bms := b false false, abd := d, rel := .start } rfl d1 rfl
  simp only [hrot, hcom, decide_true, Bool.or_true] at hfold e1
  obtain ⟨d0, s1, s2, s3, s4, s5, s6, s7, -⟩ := state true true
  have e : d0 = d' := by
    have e1 : c.transform w (b true true) = .ok d' := e1
    rw [s1] at e1
    injection e1
  subst e
  have s5' : Placed c.toExt d0 0 := by
    have : yy true = -x := rfl
    rwa [this, add_neg_cancel, rotateVec_zero] at s5
  have s6' : Directed c.toExt d0 ![0, 0, 1] := by
    have : rr true = q := rfl
    rwa [this, q4] at s6
  have k4 : c.compose (timeTranslation t0) Tr.one = .ok (b false false) := by
    have := compose_right hf.turns t0 0 rotor_one
    rw [add_zero, turn_one] at this
    show _ = Except.ok (move t0 0 1)
    rw [move_zero]
    exact this
  have k5 : c.compose (timeTranslation (-t0)) (b true true) = .ok (move 0 (-x) q) := by
    have := hf.compose (-t0) t0 0 (-x) 1 q rotor_one q0 (by rw [mul_one]; exact q0)
    rw [neg_add_cancel, rotateVec_zero, add_zero, mul_one, move_zero] at this
    exact this
  refine ⟨q, abd', q2, q3, f1, f2, ?_⟩
  unfold mapToSuperrest
  rw [hw, ok_bind, k4, ok_bind]
  exact superrest_first ho hfold d1 (errors_zero s7 hI ⟨centered_of_placed s5', upright_of_directed s6', plain_nice s7 s4⟩) k5 f1

end

/-! ## The hypotheses can be met -/

/-- The time translation of a transformation. -/
noncomputable def timeOf (T : Tr) : ℝ := (T.super 0).re / √(4 * Real.pi)

/-- The space translation of a transformation. -/
noncomputable def spaceOf (T : Tr) : Fin 3 → ℝ := ![(T.super 1).re / √(2 * Real.pi / 3), (T.super 1).im / √(2 * Real.pi / 3), (T.super 2).re / √(4 * Real.pi / 3)]

theorem timeOf_move (s : ℝ) (y : Fin 3 → ℝ) (q : Quaternion ℝ) : timeOf (move s y q) = s := constant_re s

theorem spaceOf_move (s : ℝ) (y : Fin 3 → ℝ) (q : Quaternion ℝ) : spaceOf (move s y q) = y := by
  have h1 : (move s y q).super 1 = (TransformKwargs.vectorAs (y 0) (y 1) (y 2)).1 := rfl
  have h2 : (move s y q).super 2 = (TransformKwargs.vectorAs (y 0) (y 1) (y 2)).2.1 := rfl
  have p1 : √(2 * Real.pi / 3) ≠ 0 := by positivity
  have p2 : √(4 * Real.pi / 3) ≠ 0 := by positivity
  unfold spaceOf
  rw [h1, h2]
  unfold TransformKwargs.vectorAs
  simp only [Complex.re_mul_ofReal, Complex.im_mul_ofReal, Complex.ofReal_re]
  rw [mul_div_cancel_right₀ _ p1, mul_div_cancel_right₀ _ p1, mul_div_cancel_right₀ _ p2]
  exact vec3 y

open Verif.GridMultiply Verif.Spec.Sphere ComplexConjugate in
/-- Data without radiation at one time in the translated frame. -/
noncomputable def shifted (L : Int) (T : Tr) (d : Abd) : Abd where
  t := d.t - timeOf T
  psi1 := fun ell m => if ell = 1 then solid fun θ φ => conj (Y 1 1 m (rotor θ φ)) *
    (psi1At L d (d.t - timeOf T + (field 0 0 L (superOf T) θ φ).re) θ φ + 3 * field 1 0 L (ethGHP 0 (superOf T)) θ φ * field 0 0 L d.psi2 θ φ) else 0
  psi2 := d.psi2
  sigma := fun ell m => d.sigma ell m - ethGHP 1 (ethGHP 0 (superOf T)) ell m
  sigmaDot := fun _ _ => 0

open Classical in
/-- Translations and rotations, with products that are those of functions on the sphere. -/
noncomputable def moveCalls (map2salm : List ℂ → Int → Int → Row ℂ) (spline : List ℝ → List ℝ → ℝ → ℝ) : Calls where
  mul := Verif.Props.Balance.prod 8
  dflt := 1
  prod d := Verif.Props.Balance.prod 8 2 (-2) d.sigma (bar 2 d.sigmaDot)
  integrate := Verif.Props.AbdFrame.trap
  map2salm := map2salm
  spline := spline
  compose S T := .ok (move (timeOf S + timeOf T) (spaceOf T + rotateVec T.rotation (spaceOf S)) (T.rotation * S.rotation))
  transform a T := if T = Tr.one then .ok a else if spaceOf T = 0 then .ok { a with at' := a.at'.map (rotated T.rotation (timeOf T)) } else .ok { a with at' := a.at'.map fun d => rotated T.rotation 0 (shifted a.ellMax T d) }

theorem rotated_rotated (L : Int) (q : Quaternion ℝ) (s : ℝ) (d : Abd) : Rotated L q s (rotated q s d) d :=
  ⟨rfl, fun _ _ _ _ _ => rfl, fun _ _ _ _ _ => rfl, fun _ _ _ _ _ => rfl, fun _ _ _ _ _ => rfl⟩

theorem rotated_quiet {L : Int} {d : Abd} (h : Nonradiative L d) (q : Quaternion ℝ) (s : ℝ) : Nonradiative L (rotated q s d) := by
  refine ⟨fun ell m => ?_, fun ell m h0 hl hm => ?_⟩
  · show rot ell q (d.sigmaDot ell) m = 0
    unfold rot
    exact Finset.sum_eq_zero fun m' _ => by rw [h.news, zero_mul]
  · have hr := rotated_rotated L q s d
    have h2 : RotatedModes L 0 q (ethGHP (-1) (ethGHP (-2) (bar 2 (rotated q s d).sigma))) (ethGHP (-1) (ethGHP (-2) (bar 2 d.sigma))) :=
      Verif.ChargeCov.eth_rotated (Verif.ChargeCov.eth_rotated (Verif.ChargeCov.bar_rotated hr.sigma))
    have h1 : RotatedModes L 0 q (fun ell m => (rotated q s d).psi2 ell m + ethGHP (-1) (ethGHP (-2) (bar 2 (rotated q s d).sigma)) ell m) (fun ell m => d.psi2 ell m + ethGHP (-1) (ethGHP (-2) (bar 2 d.sigma)) ell m) := by
      intro ell m k0 k1 k2
      beta_reduce
      rw [hr.psi2 ell m k0 k1 k2, h2 ell m k0 k1 k2]
      unfold rot
      rw [← Finset.sum_add_distrib]
      exact Finset.sum_congr rfl fun m' _ => by ring
    have h3 := Verif.ChargeCov.bar_rotated h1
    rw [neg_zero] at h3
    have k0 : |(0 : Int)| ≤ ell := by simpa using h0
    refine (h3 ell m k0 hl hm).trans (Eq.trans ?_ (h1 ell m k0 hl hm).symm)
    unfold rot
    exact Finset.sum_congr rfl fun m' hm' => by rw [h.real ell m' h0 hl (abs_le.2 (Finset.mem_Icc.1 hm'))]

theorem shifted_quiet {L : Int} {d : Abd} (h : Nonradiative L d) (s : ℝ) (y : Fin 3 → ℝ) (q : Quaternion ℝ) : Nonradiative L (shifted L (move s y q) d) := by
  refine ⟨fun _ _ => rfl, ?_⟩
  have e : ∀ ell m, 0 ≤ ell → |m| ≤ ell → ethGHP (-1) (ethGHP (-2) (bar 2 (shifted L (move s y q) d).sigma)) ell m = ethGHP (-1) (ethGHP (-2) (bar 2 d.sigma)) ell m := by
    intro ell m h0 hl
    by_cases h2 : 2 ≤ ell
    · have hl' : |(-m)| ≤ ell := by rwa [abs_neg]
      have e : (shifted L (move s y q) d).sigma ell (-m) = d.sigma ell (-m) := by
        show d.sigma ell (-m) - ethGHP 1 (ethGHP 0 (superOf (move s y q))) ell (-m) = _
        unfold ethGHP
        rw [super_high s y q ell (-m) h2 hl', mul_zero, mul_zero, sub_zero]
      unfold ethGHP bar
      rw [e]
    · have z' : ∀ g : Modes, ethGHP (-1) (ethGHP (-2) g) ell m = 0 := by
        intro g
        show _ * ethGHP (-2) g ell m = 0
        rw [eth_low g ell m h0 (by omega), mul_zero]
      rw [z', z']
  intro ell m h0 hl hm
  have r := h.real ell m h0 hl hm
  show (-1 : ℂ) ^ (0 + m).natAbs * (starRingEnd ℂ) (d.psi2 ell (-m) + ethGHP (-1) (ethGHP (-2) (bar 2 (shifted L (move s y q) d).sigma)) ell (-m)) =
    d.psi2 ell m + ethGHP (-1) (ethGHP (-2) (bar 2 (shifted L (move s y q) d).sigma)) ell m
  rw [e ell (-m) h0 (by rwa [abs_neg]), e ell m h0 hm]
  exact r

theorem one_space : spaceOf Tr.one = 0 := by
  rw [← turn_one, ← move_zero, spaceOf_move]

section
variable (map2salm : List ℂ → Int → Int → Row ℂ) (spline : List ℝ → List ℝ → ℝ → ℝ)

theorem move_turns : Turns (moveCalls map2salm spline) := by
  refine ⟨fun s1 s2 q1 q2 _ _ _ => ?_, fun a s q _ => ?_, fun a => if_pos rfl⟩
  · rw [← move_zero, ← move_zero, ← move_zero]
    show Except.ok (move (timeOf _ + timeOf _) (spaceOf _ + rotateVec q2 (spaceOf _)) (q2 * q1)) = _
    rw [timeOf_move, timeOf_move, spaceOf_move, spaceOf_move, rotateVec_zero, add_zero]
  · by_cases h : turn s q = Tr.one
    · refine ⟨a, if_pos h, rfl, ?_⟩
      have hq : q = 1 := congrArg Tr.rotation h
      have hs : s = 0 := by
        rw [← timeOf_move s 0 q, move_zero, h, ← turn_one, ← move_zero, timeOf_move]
      subst hq
      subst hs
      have e : ∀ (f : Modes) (k ell m : Int), |k| ≤ ell → ell ≤ a.ellMax → |m| ≤ ell → f ell m = rot ell 1 (f ell) m := fun f k ell m _ _ hm => (Verif.Rotation.rot_one ell _ m (abs_le.1 hm)).symm
      have := forall₂_map (R := Rotated a.ellMax 1 0) id (fun d => ⟨(sub_zero _).symm, e _ 1, e _ 0, e _ 2, e _ 2⟩) a.at'
      rwa [List.map_id] at this
    · have e0 : spaceOf (turn s q) = 0 := by rw [← move_zero, spaceOf_move]
      have e : timeOf (turn s q) = s := by rw [← move_zero, timeOf_move]
      refine ⟨_, (if_neg h).trans (if_pos e0), rfl, ?_⟩
      rw [e]
      exact forall₂_map _ (fun d => rotated_rotated _ _ _ _) a.at'

theorem move_frames : Frames (moveCalls map2salm spline) := by
  refine ⟨move_turns map2salm spline, fun a s q a' _ hQ h => ?_, fun s1 s2 y1 y2 q1 q2 _ _ _ => ?_, fun a s y q hy hq hQ hinc hroom => ?_⟩
  · by_cases h1 : turn s q = Tr.one
    · have : (moveCalls map2salm spline).transform a (turn s q) = .ok a := if_pos h1
      rw [this] at h
      cases h
      exact hQ
    · have e0 : spaceOf (turn s q) = 0 := by rw [← move_zero, spaceOf_move]
      have : (moveCalls map2salm spline).transform a (turn s q) = .ok { a with at' := a.at'.map (rotated q (timeOf (turn s q))) } := (if_neg h1).trans (if_pos e0)
      rw [this] at h
      cases h
      intro d' hd'
      obtain ⟨d, hd, rfl⟩ := List.mem_map.1 hd'
      exact rotated_quiet (hQ d hd) _ _
  · show Except.ok (move (timeOf _ + timeOf _) (spaceOf _ + rotateVec q2 (spaceOf _)) (q2 * q1)) = _
    rw [timeOf_move, timeOf_move, spaceOf_move, spaceOf_move]
  · have h0 : spaceOf (move s y q) ≠ 0 := by rwa [spaceOf_move]
    have h1 : move s y q ≠ Tr.one := fun h => h0 (by rw [h, one_space])
    refine ⟨_, (if_neg h1).trans (if_neg h0), rfl, ?_, ?_, ?_, ?_⟩
    · show 2 ≤ (a.at'.map _).length
      rw [List.length_map]
      exact room_length hroom
    · unfold times at hinc ⊢
      rw [List.pairwise_map] at hinc
      rw [List.pairwise_map, List.pairwise_map]
      refine hinc.imp fun h => ?_
      show _ - timeOf _ - 0 < _ - timeOf _ - 0
      linarith
    · intro d' hd'
      obtain ⟨d, hd, rfl⟩ := List.mem_map.1 hd'
      exact rotated_quiet (shifted_quiet (hQ d hd) _ _ _) _ _
    · intro d' hd'
      obtain ⟨d, hd, rfl⟩ := List.mem_map.1 hd'
      exact ⟨d, hd, shifted a.ellMax (move s y q) d, ⟨fun _ _ => rfl, fun _ _ _ _ _ => rfl, fun _ _ _ _ _ => rfl, fun m _ => by unfold shifted; simp only [if_true]⟩, rotated_rotated _ _ _ _⟩

end

/-- A spinning object of which the center of mass is at `(0, 0, k)`, at one time. -/
noncomputable def thing (k t : ℝ) : Abd :=
  { t := t, psi1 := fun ell m => if ell = 1 ∧ m = 0 then -(Complex.I + √3 * k) else 0, psi2 := fun ell m => if ell = 0 ∧ m = 0 then -1 else 0, sigma := fun _ _ => 0, sigmaDot := fun _ _ => 0 }

noncomputable def things (k : ℝ) : Data := { at' := [thing k 0, thing k 1, thing k 2, thing k 3], ellMax := 8 }

theorem thing_of_mem {k : ℝ} {d : Abd} (h : d ∈ (things k).at') : ∃ t, d = thing k t := by
  simp only [things, List.mem_cons, List.not_mem_nil, or_false] at h
  rcases h with rfl | rfl | rfl | rfl <;> exact ⟨_, rfl⟩

theorem things_quiet (k : ℝ) : Quiet (things k) := by
  intro d hd
  obtain ⟨t, rfl⟩ := thing_of_mem hd
  refine ⟨fun _ _ => rfl, fun ell m _ _ hm => ?_⟩
  by_cases h : ell = 0
  · subst h
    have hm0 : m = 0 := by simpa using hm
    subst hm0
    simp [thing, ethGHP, bar]
  · simp [thing, ethGHP, bar, h]

theorem things_times (k : ℝ) : times (things k) = [0, 1, 2, 3] := rfl

section
variable (map2salm : List ℂ → Int → Int → Row ℂ) (spline : List ℝ → List ℝ → ℝ → ℝ) (k : ℝ)

theorem thing_momentum (t : ℝ) : bondiFourMomentum (moveCalls map2salm spline).mul (moveCalls map2salm spline).dflt (thing k t) = .ok [1 / √(4 * Real.pi), 0, 0, 0] := by
  simp only [moveCalls, bondiFourMomentum, massAspect, thing, prod_zero]
  simp [chargeVectorFromAspect, view1, truncateEll, re, bar, pyGet, pure_eq_ok, ok_bind]

theorem thing_com (t : ℝ) : bondiCoMCharge (moveCalls map2salm spline).mul (thing k t) = .ok [0, 0, 1 / √(4 * Real.pi) * k] := by
  simp only [moveCalls, bondiCoMCharge, thing, prod_zero]
  simp [chargeVectorFromAspect, view1, truncateEll, ethGHP, pyGet, pure_eq_ok, ok_bind]
  field_simp

theorem thing_angular (t : ℝ) : bondiAngularMomentum (moveCalls map2salm spline).mul (thing k t) = .ok [0, 0, 1 / √3 / √(4 * Real.pi)] := by
  simp only [moveCalls, bondiAngularMomentum, thing, prod_zero]
  simp [chargeVectorFromAspect, view1, truncateEll, pyGet, pure_eq_ok, ok_bind]

theorem things_placed : Placed (moveCalls map2salm spline).toExt (things k) ![0, 0, k] := by
  intro d hd
  obtain ⟨t, rfl⟩ := thing_of_mem hd
  refine ⟨1 / √(4 * Real.pi), by positivity, thing_momentum map2salm spline k t, ?_⟩
  refine (thing_com map2salm spline k t).trans ?_
  simp

theorem things_directed : Directed (moveCalls map2salm spline).toExt (things k) ![0, 0, 1] := by
  intro d hd
  obtain ⟨t, rfl⟩ := thing_of_mem hd
  have pos : 0 < 1 / √3 / √(4 * Real.pi) / (1 / √(4 * Real.pi)) ^ 2 := by positivity
  obtain ⟨M1, M2, M3, hM⟩ := boost_ok (ext := (moveCalls map2salm spline).toExt) (thing k t)
  refine ⟨_, pos, M1, M2, M3, _, _, _, _, _, _, _, hM, thing_angular map2salm spline k t, thing_momentum map2salm spline k t, ?_⟩
  have h0 : (![0, 0, 0] : Fin 3 → ℝ) = 0 := by
    funext i
    fin_cases i <;> rfl
  rw [spin_at_rest _ 0, h0]
  generalize 1 / √3 / √(4 * Real.pi) = J
  generalize 1 / √(4 * Real.pi) = E
  funext i
  fin_cases i <;> simp [dimensionlessSpin]

theorem things_plain : Plain (moveCalls map2salm spline).toExt (things k) := by
  refine ⟨1, one_pos, fun d hd => ?_⟩
  obtain ⟨t, rfl⟩ := thing_of_mem hd
  refine ⟨_, rfl, fun ell m _ _ hm => ?_⟩
  by_cases h : ell = 0
  · subst h
    have hm0 : m = 0 := by simpa using hm
    subst hm0
    simp [moveCalls, thing, prod_zero, ethGHP, bar]
  · simp [moveCalls, thing, prod_zero, ethGHP, bar, h]

end

theorem things_window {abd : Data} {k : ℝ} (a2 : Moved q 0 abd (things k)) : times abd = [0, 1, 2, 3] ∧ window 0 250 abd = .ok abd := by
  have e : times abd = [0, 1, 2, 3] := by
    have := moved_times a2
    unfold times
    rw [this]
    simp [things, thing]
  have hl : abd.at'.length = 4 := by
    rw [a2.2.length_eq]
    rfl
  refine ⟨e, ?_⟩
  unfold window
  rw [e]
  have n1 : AbdFrame.nearest [0, 1, 2, 3] (0 - (250 + 200)) = .ok 0 := by
    norm_num [AbdFrame.nearest, AbdFrame.argmin, AbdFrame.argminFrom]
  have n2 : AbdFrame.nearest [0, 1, 2, 3] (0 + (250 + 200)) = .ok 3 := by
    norm_num [AbdFrame.nearest, AbdFrame.argmin, AbdFrame.argminFrom]
  rw [n1, ok_bind, n2, ok_bind]
  show Except.ok { abd with at' := abd.at'.take 4 } = _
  rw [List.take_of_length_le (by omega)]

theorem moved_things (hE : Exact c.map2salm) (hs : ConstSpline c.spline) (hI : PositiveIntegral c.integrate) (hprod : ∀ d, c.prod d = c.mul 2 (-2) d.sigma (bar 2 d.sigmaDot)) (hf : Frames c) {k : ℝ} (hk0 : k ≠ 0) (hk1 : |k| < 1)
    (hmul : IsProduct (things k).ellMax c.mul) (h2 : Placed c.toExt (things k) ![0, 0, k]) (h3 : Directed c.toExt (things k) ![0, 0, 1]) (h4 : Plain c.toExt (things k)) (hq : UnitRotor q)
    (hz : rotateVec (star q) ![0, 0, 1] ≠ ![0, 0, -1]) :
    ∃ abd, c.transform (things k) (turn 0 q) = .ok abd ∧ ∀ o, Sensible o → ∃ r abd', rotateVec r ![0, 0, 1] = rotateVec (star q) ![0, 0, 1] ∧
      mapToSuperrest c o [.supertranslation, .rotation, .com] 0 250 abd = .ok (abd', move 0 (-(rotateVec (star q) ![0, 0, k])) r, .tuple (.fin 0) (.fin 0) (.fin 0)) := by
  obtain ⟨abd, a1, a2⟩ := hf.turns.transform (things k) 0 q hq
  obtain ⟨ht, hw⟩ := things_window a2
  have hL : 1 ≤ (things k).ellMax := by simp [things]
  have hx := moved_placed hmul hL hq a2 h2
  have hd := moved_directed hmul hL hq a2 h3
  have hpl := moved_plain hmul hprod hL hq a2 h4
  have hl := Verif.Props.GridModes.rotateVec_length (star q) (Verif.Rotation.unit_star hq) ![0, 0, 1]
  rw [Fin.sum_univ_three, Fin.sum_univ_three] at hl
  have hQ := hf.quiet _ 0 q abd hq (things_quiet k) a1
  have hmul' : IsProduct abd.ellMax c.mul := by
    rw [a2.1]
    exact hmul
  have hx0 : rotateVec (star q) ![0, 0, k] ≠ 0 := by
    intro h
    have : (![0, 0, k] : Fin 3 → ℝ) = 0 := by rw [← rotateVec_star hq ![0, 0, k], h, rotateVec_zero]
    exact hk0 (by simpa using congrFun this 2)
  have hroom : Room (Spec.Displaced.length (rotateVec (star q) ![0, 0, k])) (times abd) := by
    rw [rotateVec_length (Verif.Rotation.unit_star hq), ht]
    have e : Spec.Displaced.length ![0, 0, k] = |k| := by
      simp [Spec.Displaced.length, Real.sqrt_sq_eq_abs]
    rw [e]
    exact ⟨0, by simp, 1, by simp, 2, by simp, 3, by simp, by linarith, by norm_num, by linarith⟩
  refine ⟨abd, a1, fun o ho => ?_⟩
  obtain ⟨r, abd', -, r2, -, -, r3⟩ := displaced hE hs hI hprod hf ho [.supertranslation, .rotation, .com] (by simp) (by simp) (by simp) 0 250 abd abd hw hmul' (by rw [a2.1]; exact hL) (by rw [ht]; norm_num) hQ _ _ hx0 hx hroom hpl
    (hl.trans (by simp)) hd hz
  exact ⟨r, abd', r2, r3⟩

/-- A spinning object at a distance `|k| < 1` from the origin, seen from a frame that is rotated in any way such that the spin does not point to `-z`, meets all hypotheses of `displaced`. -/
example (q : Quaternion ℝ) (hq : UnitRotor q) (hz : rotateVec (star q) ![0, 0, 1] ≠ ![0, 0, -1]) (k : ℝ) (hk0 : k ≠ 0) (hk1 : |k| < 1) : ∃ c abd, Frames c ∧ c.transform (things k) (turn 0 q) = .ok abd ∧ ∀ o, Sensible o →
    ∃ r abd', rotateVec r ![0, 0, 1] = rotateVec (star q) ![0, 0, 1] ∧
      mapToSuperrest c o [.supertranslation, .rotation, .com] 0 250 abd = .ok (abd', move 0 (-(rotateVec (star q) ![0, 0, k])) r, .tuple (.fin 0) (.fin 0) (.fin 0)) := by
  obtain ⟨map2salm, hE⟩ : ∃ map2salm, Exact map2salm := Verif.Props.GridMultiply.exact_exists
  obtain ⟨spline, hs⟩ : ∃ spline, ConstSpline spline := ⟨fun _ y _ => y.headD 0, fun t c x h => by
    obtain ⟨n, hn⟩ : ∃ n, t.length = n + 1 := ⟨t.length - 1, by omega⟩
    rw [hn]; rfl⟩
  have hI : PositiveIntegral (moveCalls map2salm spline).integrate := fun y t hl hp h2 hn => ⟨Verif.Props.AbdFrame.trap_nonneg y t hl hp hn, Verif.Props.AbdFrame.trap_zero y t hl hp h2 hn⟩
  obtain ⟨abd, h1, h2⟩ := moved_things (c := moveCalls map2salm spline) hE hs hI (fun _ => rfl) (move_frames map2salm spline) hk0 hk1 (Verif.Props.Balance.prod_product 8) (things_placed map2salm spline k) (things_directed map2salm spline k)
    (things_plain map2salm spline k) hq hz
  exact ⟨_, abd, move_frames map2salm spline, h1, h2⟩

end Verif.Props.Displaced
