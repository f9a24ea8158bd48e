import Verif.Props.Displaced

/-!
# C105, C106: an object that is not at the origin, with a spin along `-z`
-/

namespace Verif.Props.DisplacedDown
open Verif Verif.Charges Verif.Modes Verif.SuperrestLoop Verif.FrameErrors Verif.SuperrestMap Verif.Spec.SuperrestMap Verif.Spec.FrameErrors Verif.Spec.AbdFrame Verif.Spec.Moreschi Verif.Spec.SuperrestLoop
  Verif.Props.FrameErrors Verif.GridMultiply.Spec Verif.Spec.TiltedSpin Verif.Spec.ChargeCov Verif.Props.SuperrestMap Verif.Props.TiltedSpin Verif.Spec.Supertranslation Verif.Props.Displaced
open Verif.Spec.Displaced (move superOf Quiet Placed Room Displaced Frames)
open Verif.Spec.Rotation (UnitRotor rot)
open Verif.Spec.Bms (Rotor)
open Verif.Spec.Balance (IsProduct)
open Verif.AbdTransform (rotateVec)

variable {c : Calls} {q : Quaternion ℝ}

/-- The steps before the first rotation change the flag only; the rotation fails. -/
theorem fold_flag_error {o : Outer Data Tr} {w : Data} {e : PyErr} (b : Bool → Tr)
    (hstep : ∀ m d st, st = .supertranslation ∨ st = .com → o.transform w (b m) = .ok d →
      ∃ T d', o.solve st d = .ok T ∧ o.compose T (b m) = .ok (b (m || decide (st = .com))) ∧ o.transform w (b (m || decide (st = .com))) = .ok d')
    (hrot : ∀ m d, o.transform w (b m) = .ok d → o.solve .rotation d = .error e)
    (order : List Step) (hk : ∀ st ∈ order, st = .supertranslation ∨ st = .rotation ∨ st = .com) (hr : Step.rotation ∈ order) (m : Bool) (v : SuperrestLoop.Inner Data Tr) (hb : v.bms = b m) (ha : o.transform w (b m) = .ok v.abd) :
    order.foldlM (SuperrestLoop.inner o false w) v = .error e := by
  induction order generalizing v m with
  | nil => cases hr
  | cons st l ih =>
    have hst := hk st (by simp)
    by_cases q : st = .rotation
    · subst q
      rw [List.foldlM_cons, inner_error (hrot m v.abd ha)]
      rfl
    · have hr' : Step.rotation ∈ l := (List.mem_cons.1 hr).resolve_left fun h => q h.symm
      have hst' : st = .supertranslation ∨ st = .com := by
        rcases hst with h | h | h
        · exact .inl h
        · exact absurd h q
        · exact .inr h
      obtain ⟨T, d', h1, h2, h3⟩ := hstep m v.abd st hst' ha
      rw [List.foldlM_cons, inner_ok hst h1 (hb ▸ h2) h3, ok_bind]
      exact ih (fun s' hs' => hk s' (by simp [hs'])) hr' _ _ rfl h3

section
variable (hE : Exact c.map2salm) (hs : ConstSpline c.spline) (hI : PositiveIntegral c.integrate) (hprod : ∀ d, c.prod d = c.mul 2 (-2) d.sigma (bar 2 d.sigmaDot)) (hf : Frames c) {o : Opts} (ho : Sensible o) (order : List Step)
  (hk : ∀ s ∈ order, s = .supertranslation ∨ s = .rotation ∨ s = .com) (hrot : Step.rotation ∈ order) (t0 padding : ℝ) (abd w : Data) (hw : window t0 padding abd = .ok w) (hmul : IsProduct abd.ellMax c.mul)
  (hL : 1 ≤ abd.ellMax) (hinc : (times abd).Pairwise (· < ·)) (hQ : Quiet abd)
include hE hs hI hprod hf ho hk hrot hw hmul hL hinc hQ

/-- C105, C106: if the spin of an object at any place `x` other than the origin points to `-z`, then `map_to_superrest_frame` raises an exception, with any order of the solvers that contains the rotation. -/
theorem displaced_antiparallel_raises (x : Fin 3 → ℝ) (hx0 : x ≠ 0) (hx : Placed c.toExt w x) (hroom : Room (Spec.Displaced.length x) (times w)) (hpl : Plain c.toExt w) (hd : Directed c.toExt w ![0, 0, -1]) :
    mapToSuperrest c o order t0 padding abd = .error .other := by
  have u1 := Verif.Rotation.unit_one
  have hsub : w.ellMax = abd.ellMax ∧ w.at'.Sublist abd.at' := by
    unfold window at hw
    generalize AbdFrame.nearest (times abd) (t0 - (padding + 200)) = A at hw
    generalize AbdFrame.nearest (times abd) (t0 + (padding + 200)) = B at hw
    rcases A with e | i
    · cases hw
    rcases B with e | j
    · cases hw
    cases hw
    exact ⟨rfl, (List.take_sublist _ _).trans (List.drop_sublist _ _)⟩
  have hincw : (times w).Pairwise (· < ·) := hinc.sublist (hsub.2.map _)
  have hQw : Quiet w := fun d h => by
    rw [hsub.1]
    exact hQ d (hsub.2.subset h)
  have hmulw : IsProduct w.ellMax c.mul := by
    rw [hsub.1]
    exact hmul
  have hLw : 1 ≤ w.ellMax := by
    rw [hsub.1]
    exact hL
  have hpw := proper_of hLw (room_length hroom) hincw hx
  have hlen : Spec.Displaced.length (-x) = Spec.Displaced.length x := by simp [Spec.Displaced.length]
  set yy : Bool → Fin 3 → ℝ := fun m => if m then -x else 0 with hyy
  set b : Bool → Tr := fun m => move t0 (yy m) 1 with hb
  have state : ∀ m, ∃ d, c.transform w (b m) = .ok d ∧ d.ellMax = w.ellMax ∧ Quiet d ∧ Plain c.toExt d ∧ Placed c.toExt d (x + yy m) ∧ Directed c.toExt d ![0, 0, -1] ∧
      Spec.FrameErrors.Proper c.toExt d ∧ (m = false → Room (Spec.Displaced.length x) (times d)) := by
    intro m
    cases m
    · have e : b false = turn t0 1 := move_zero _ _
      obtain ⟨d, d1, d2⟩ := hf.turns.transform w t0 1 u1
      have hxd := moved_placed hmulw hLw u1 d2 hx
      have hdd := moved_directed hmulw hLw u1 d2 hd
      rw [star_one, Verif.Props.AbdTransform.rotateVec_one] at hxd hdd
      refine ⟨d, by rw [e]; exact d1, d2.1, hf.quiet w t0 1 d u1 hQw d1, moved_plain hmulw hprod hLw u1 d2 hpl, ?_, hdd, moved_proper hmulw u1 d2 hpw, fun _ => ?_⟩
      · show Placed c.toExt d (x + 0)
        rwa [add_zero]
      · have := room_shift t0 hroom
        unfold times at this ⊢
        rwa [moved_times d2]
    · obtain ⟨d, d1, d2⟩ := hf.transform w t0 (-x) 1 (neg_ne_zero.2 hx0) u1 hQw hincw (by rw [hlen]; exact hroom)
      have hxd := displaced_placed hmulw hLw u1 hQw d2 hx
      have hdd := displaced_directed hmulw hLw u1 hQw d2 hx hd
      rw [star_one, Verif.Props.AbdTransform.rotateVec_one] at hxd hdd
      exact ⟨d, d1, d2.ell, d2.quiet, displaced_plain hmulw hprod hLw u1 hQw d2 hpl, hxd, hdd, proper_of (by rw [d2.ell]; exact hLw) d2.two d2.inc hxd, fun h => by cases h⟩
  have one : Tr.one = move 0 0 1 := by rw [move_zero, turn_one]
  have c1 : ∀ m, c.compose Tr.one (b m) = .ok (b m) := by
    intro m
    have := hf.compose 0 t0 0 (yy m) 1 1 rotor_one rotor_one (by rw [mul_one]; exact rotor_one)
    rwa [zero_add, rotateVec_zero, add_zero, mul_one, ← one] at this
  have h11 : c.compose Tr.one Tr.one = .ok Tr.one := by
    have := hf.compose 0 0 0 0 1 1 rotor_one rotor_one (by rw [one_mul]; exact rotor_one)
    rwa [zero_add, rotateVec_zero, add_zero, mul_one, ← one] at this
  obtain ⟨x1, tx1, px1⟩ := ho.comTol
  obtain ⟨x3, tx3, px3⟩ := ho.supertranslationTol
  have same : ∀ m d, (calls c o).transform w (b m) = .ok d → ∀ d0, c.transform w (b m) = .ok d0 → d0 = d := by
    intro m d htr d0 h0
    have htr : c.transform w (b m) = .ok d := htr
    rw [h0] at htr
    injection htr
  have step : ∀ m d st, st = .supertranslation ∨ st = .com → (calls c o).transform w (b m) = .ok d →
      ∃ T d', (calls c o).solve st d = .ok T ∧ (calls c o).compose T (b m) = .ok (b (m || decide (st = .com))) ∧ (calls c o).transform w (b (m || decide (st = .com))) = .ok d' := by
    intro m d st hst htr
    obtain ⟨d0, s1, s2, s3, s4, s5, s6, s7, s8⟩ := state m
    obtain rfl := same m d htr d0 s1
    obtain ⟨d', t1, -⟩ := state (m || decide (st = .com))
    have hmd : IsProduct d0.ellMax c.mul := by
      rw [s2]
      exact hmulw
    suffices ∃ T, (calls c o).solve st d0 = .ok T ∧ c.compose T (b m) = .ok (b (m || decide (st = .com))) by
      obtain ⟨T, k1, k2⟩ := this
      exact ⟨T, d', k1, k2, t1⟩
    rcases hst with rfl | rfl
    · obtain ⟨f, hf1, hf2⟩ := plain_stationary s4
      refine ⟨Tr.one, ?_, by simpa using c1 m⟩
      show SuperrestMap.supertranslation c o.supertranslation o.supertranslationTol d0 = _
      rw [tx3]
      exact supertranslation_one hE hs s7 hf1 (fun ell m h2 _ _ => hf2 ell m (by omega)) ho.supertranslation px3
    · cases m
      · have s5' : Placed c.toExt d0 x := by
          have : yy false = 0 := rfl
          rwa [this, add_zero] at s5
        refine ⟨move 0 (-x) 1, ?_, ?_⟩
        · show (SuperrestLoop.com (comEnv c) d0 o.com o.comTol >>= _) = _
          rw [com_move hmd hf s7 hI s3 hx0 s5' (s8 rfl) ho.com (tol := o.comTol) (by rw [tx1]; exact px1)]
          rfl
        · have := hf.compose 0 t0 (-x) 0 1 1 rotor_one rotor_one (by rw [mul_one]; exact rotor_one)
          rw [zero_add, Verif.Props.AbdTransform.rotateVec_one, zero_add, mul_one] at this
          have e : b (false || decide (Step.com = .com)) = b true := by simp
          rw [e]
          exact this
      · refine ⟨Tr.one, ?_, by simpa using c1 true⟩
        have s5' : Placed c.toExt d0 0 := by
          have : yy true = -x := rfl
          rwa [this, add_neg_cancel] at s5
        show (SuperrestLoop.com (comEnv c) d0 o.com o.comTol >>= _) = _
        rw [com_one s7 hI (centered_of_placed s5') h11 (hf.turns.same d0) ho.com (tol := o.comTol) (by rw [tx1]; exact px1)]
        rfl
  have fails : ∀ m d, (calls c o).transform w (b m) = .ok d → (calls c o).solve .rotation d = .error .other := by
    intro m d htr
    obtain ⟨d0, s1, -, -, -, -, s6, s7, -⟩ := state m
    obtain rfl := same m d htr d0 s1
    show (SuperrestLoop.rotation (rotationEnv c) d0 o.rotation o.rotationTol >>= _) = _
    rw [rotation_fails s7 (show norm3 ![0, 0, -1] = 1 by simp [norm3]) s6 (Verif.Props.Superrest.spin_rotor_nan 1 zero_le_one) ho.rotation o.rotationTol]
    rfl
  obtain ⟨d, d1, -⟩ := state false
  have k4 : c.compose (timeTranslation t0) Tr.one = .ok (b false) := by
    have := compose_right hf.turns t0 0 rotor_one
    rw [add_zero, turn_one] at this
    show _ = Except.ok (move t0 0 1)
    rw [move_zero]
    exact this
  unfold mapToSuperrest
  rw [hw, ok_bind, k4, ok_bind]
  exact superrest_error ho (fold_flag_error b step fails order hk hrot false _ rfl d1) d1

end

/-! ## The hypotheses can be met -/

/-- Half a turn about the `x` axis. -/
def half : Quaternion ℝ := ⟨0, 1, 0, 0⟩

theorem half_parts : half.re = 0 ∧ half.imI = 1 ∧ half.imJ = 0 ∧ half.imK = 0 := ⟨rfl, rfl, rfl, rfl⟩

theorem half_unit : UnitRotor half := by
  obtain ⟨h1, h2, h3, h4⟩ := half_parts
  simp [UnitRotor, Quaternion.normSq_def', h1, h2, h3, h4]

theorem half_down : rotateVec (star half) ![0, 0, 1] = ![0, 0, -1] := by
  obtain ⟨h1, h2, h3, h4⟩ := half_parts
  have v : ∀ x : Fin 3 → ℝ, (Verif.AbdTransform.vecQuat x).re = 0 ∧ (Verif.AbdTransform.vecQuat x).imI = x 0 ∧ (Verif.AbdTransform.vecQuat x).imJ = x 1 ∧ (Verif.AbdTransform.vecQuat x).imK = x 2 := fun x => ⟨rfl, rfl, rfl, rfl⟩
  obtain ⟨v1, v2, v3, v4⟩ := v ![0, 0, 1]
  funext i
  fin_cases i <;> simp [rotateVec, v1, v2, v3, v4, h1, h2, h3, h4]

/-- The spinning object of C106 at the distance `|k| < 1` of the origin, seen from a frame that is turned upside down. -/
example (k : ℝ) (hk0 : k ≠ 0) (hk1 : |k| < 1) : ∃ c abd, Frames c ∧ c.transform (things k) (turn 0 half) = .ok abd ∧ ∀ o, Sensible o → mapToSuperrest c o [.com, .supertranslation, .rotation] 0 250 abd = .error .other := by
  obtain ⟨map2salm, hE⟩ : ∃ map2salm, Exact map2salm := Verif.Props.GridMultiply.exact_exists
  obtain ⟨spline, hs⟩ : ∃ spline, ConstSpline spline := ⟨fun _ y _ => y.headD 0, fun t c x h => by
    obtain ⟨n, hn⟩ : ∃ n, t.length = n + 1 := ⟨t.length - 1, by omega⟩
    rw [hn]; rfl⟩
  have hI : PositiveIntegral (moveCalls map2salm spline).integrate := fun y t hl hp h2 hn => ⟨Verif.Props.AbdFrame.trap_nonneg y t hl hp hn, Verif.Props.AbdFrame.trap_zero y t hl hp h2 hn⟩
  have hf := move_frames map2salm spline
  have hmul : IsProduct (things k).ellMax (moveCalls map2salm spline).mul := Verif.Props.Balance.prod_product 8
  have hL : 1 ≤ (things k).ellMax := by simp [things]
  obtain ⟨abd, a1, a2⟩ := hf.turns.transform (things k) 0 half half_unit
  obtain ⟨ht, hw⟩ := things_window a2
  have hx := moved_placed hmul hL half_unit a2 (things_placed map2salm spline k)
  have hd := moved_directed hmul hL half_unit a2 (things_directed map2salm spline k)
  rw [half_down] at hd
  have hpl := moved_plain hmul (fun _ => rfl) hL half_unit a2 (things_plain map2salm spline k)
  have hQ := hf.quiet _ 0 half abd half_unit (things_quiet k) a1
  have hmul' : IsProduct abd.ellMax (moveCalls map2salm spline).mul := by
    rw [a2.1]
    exact hmul
  have hx0 : rotateVec (star half) ![0, 0, k] ≠ 0 := by
    intro h
    have : (![0, 0, k] : Fin 3 → ℝ) = 0 := by rw [← rotateVec_star half_unit ![0, 0, k], h, rotateVec_zero]
    exact hk0 (by simpa using congrFun this 2)
  have hroom : Room (Spec.Displaced.length (rotateVec (star half) ![0, 0, k])) (times abd) := by
    rw [rotateVec_length (Verif.Rotation.unit_star half_unit), ht]
    have e : Spec.Displaced.length ![0, 0, k] = |k| := by
      simp [Spec.Displaced.length, Real.sqrt_sq_eq_abs]
    rw [e]
    exact ⟨0, by simp, 1, by simp, 2, by simp, 3, by simp, by linarith, by norm_num, by linarith⟩
  exact ⟨_, abd, hf, a1, fun o ho => displaced_antiparallel_raises hE hs hI (fun _ => rfl) hf ho [.com, .supertranslation, .rotation] (by simp) (by simp) 0 250 abd abd hw hmul' (by rw [a2.1]; exact hL) (by rw [ht]; norm_num) hQ _ hx0 hx hroom hpl hd⟩

end Verif.Props.DisplacedDown
