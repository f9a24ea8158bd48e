import Verif.Spec.TiltedSpin
import Verif.Props.SuperrestMap
import Verif.Props.ChargeCov
import Verif.Props.Superrest

/-!
# C105: what `map_to_superrest_frame` does to a tilted spin
-/

namespace Verif.Props.TiltedSpin
open Verif Verif.Charges Verif.Modes Verif.SuperrestLoop Verif.FrameErrors Verif.SuperrestMap Verif.Spec.SuperrestMap Verif.Spec.FrameErrors Verif.Spec.AbdFrame Verif.Spec.Moreschi Verif.Spec.SuperrestLoop
  Verif.Props.FrameErrors Verif.GridMultiply.Spec Verif.Spec.TiltedSpin Verif.Spec.ChargeCov Verif.Props.SuperrestMap
open Verif.Spec.Rotation (UnitRotor rot)
open Verif.Spec.Bms (Rotor)
open Verif.Spec.Balance (IsProduct)
open Verif.AbdTransform (rotateVec)

variable {c : Calls} {a a' : Data} {q : Quaternion ℝ} {s : ℝ}

/-! ## Rotated data -/

theorem forall₂_left {A B : Type} {R : A → B → Prop} {l : List A} {l' : List B} (h : List.Forall₂ R l l') : ∀ x ∈ l, ∃ y ∈ l', R x y := by
  induction h with
  | nil => intro x hx; cases hx
  | cons h _ ih =>
    intro x hx
    rcases List.mem_cons.1 hx with rfl | hx
    · exact ⟨_, by simp, h⟩
    · obtain ⟨y, hy, hr⟩ := ih x hx
      exact ⟨y, by simp [hy], hr⟩

theorem ofFn3 (p : Fin 3 → ℝ) : List.ofFn p = [p 0, p 1, p 2] := by
  simp [List.ofFn_succ]

theorem vec3 (p : Fin 3 → ℝ) : (![p 0, p 1, p 2] : Fin 3 → ℝ) = p := by
  funext i
  fin_cases i <;> rfl

theorem moved_times (h : Moved q s a' a) : a'.at'.map (·.t) = (a.at'.map (·.t)).map (· - s) := by
  obtain ⟨-, h⟩ := h
  generalize a'.at' = l at h
  generalize a.at' = l' at h
  induction h with
  | nil => rfl
  | cons h _ ih => rw [List.map_cons, List.map_cons, List.map_cons, ih, h.t]

theorem moved_proper (hmul : IsProduct a.ellMax c.mul) (hq : UnitRotor q) (h : Moved q s a' a) (hp : Spec.FrameErrors.Proper c.toExt a) : Spec.FrameErrors.Proper c.toExt a' := by
  refine ⟨by rw [h.2.length_eq]; exact hp.two, ?_, fun d' hd' => ?_, by rw [h.1]; exact hp.ell⟩
  · rw [moved_times h, List.pairwise_map]
    exact hp.inc.imp fun h => by linarith
  · obtain ⟨d, hd, hr⟩ := forall₂_left h.2 d' hd'
    obtain ⟨E, p, k1, k2⟩ := Verif.Props.ChargeCov.four_momentum_rotated hmul hp.ell hq hr c.dflt
    obtain ⟨E', p1, p2, p3, k3, hE, hm⟩ := hp.massive d hd
    rw [k1, ofFn3] at k3
    cases k3
    refine ⟨E, _, _, _, by rw [k2, ofFn3], hE, ?_⟩
    have := Verif.Props.GridModes.rotateVec_length (star q) (Verif.Rotation.unit_star hq) p
    rw [Fin.sum_univ_three, Fin.sum_univ_three] at this
    rw [this]
    exact hm

theorem moved_centered (hmul : IsProduct a.ellMax c.mul) (hL : 1 ≤ a.ellMax) (hq : UnitRotor q) (h : Moved q s a' a) (hc : Centered c.toExt a) : Centered c.toExt a' := by
  intro d' hd'
  obtain ⟨d, hd, hr⟩ := forall₂_left h.2 d' hd'
  obtain ⟨G, N, p, E, k1, -, -, k2, -⟩ := Verif.Props.ChargeCov.CoM_rotated hmul hL hq hr c.dflt
  have := hc d hd
  rw [k1, ofFn3] at this
  have h0 : G = 0 := by
    injection this with this
    simp only [List.cons.injEq, and_true] at this
    rw [← vec3 G, this.1, this.2.1, this.2.2]
    funext i
    fin_cases i <;> rfl
  rw [k2, h0]
  have e : rotateVec (star q) 0 = 0 := by
    have := Verif.Lemmas.Bms.rotateVec_smul (star q) 0 0
    rwa [zero_smul, zero_smul] at this
  rw [e, ofFn3]
  rfl

theorem moved_directed (hmul : IsProduct a.ellMax c.mul) (hL : 1 ≤ a.ellMax) (hq : UnitRotor q) (h : Moved q s a' a) {n : Fin 3 → ℝ} (hn : Directed c.toExt a n) : Directed c.toExt a' (rotateVec (star q) n) := by
  intro d' hd'
  obtain ⟨d, hd, hr⟩ := forall₂_left h.2 d' hd'
  obtain ⟨k, hk, N1, N2, N3, J1, J2, J3, E, p1, p2, p3, e1, e2, e3, e4⟩ := hn d hd
  obtain ⟨J, j1, j2⟩ := Verif.Props.ChargeCov.angular_momentum_rotated hmul hL hq hr
  obtain ⟨E', p', f1, f2⟩ := Verif.Props.ChargeCov.four_momentum_rotated hmul hL hq hr c.dflt
  obtain ⟨G, N, p, E'', -, n1, m1, -, n2⟩ := Verif.Props.ChargeCov.CoM_rotated hmul hL hq hr c.dflt
  rw [n1, ofFn3] at e1
  rw [j1, ofFn3] at e2
  rw [f1, ofFn3] at e3
  rw [f1] at m1
  have hpp : p' = p := by
    injection m1 with m1
    injection m1 with _ m1
    exact List.ofFn_injective m1
  subst hpp
  cases e1
  cases e2
  cases e3
  rw [vec3, vec3, vec3] at e4
  refine ⟨k, hk, _, _, _, _, _, _, _, _, _, _, by rw [n2, ofFn3], by rw [j2, ofFn3], by rw [f2, ofFn3], ?_⟩
  rw [vec3, vec3, vec3, Verif.Props.ChargeCov.dimensionless_spin_rotated hq, ← e4, Verif.Lemmas.Bms.rotateVec_smul]

theorem rot_scalar (q : Quaternion ℝ) (f : Int → ℂ) : rot 0 q f 0 = f 0 := by
  unfold rot
  rw [show Finset.Icc (-(0 : Int)) 0 = {0} by decide, Finset.sum_singleton, Verif.ChargeCov.Dlm_zero, mul_one]

theorem moved_plain (hmul : IsProduct a.ellMax c.mul) (hprod : ∀ d, c.prod d = c.mul 2 (-2) d.sigma (bar 2 d.sigmaDot)) (hL : 1 ≤ a.ellMax) (hq : UnitRotor q) (h : Moved q s a' a) (hn : Plain c.toExt a) : Plain c.toExt a' := by
  obtain ⟨M, hM, hn⟩ := hn
  refine ⟨M, hM, fun d' hd' => ?_⟩
  obtain ⟨d, hd, hr⟩ := forall₂_left h.2 d' hd'
  obtain ⟨f, f1, f2⟩ := hn d hd
  obtain ⟨g, g', g1, g2, g3⟩ := Verif.Props.ChargeCov.supermomentum_rotated hmul hL hq hr "moreschi" (by simp [Verif.Props.Charges.names]) false
  have hp : c.toExt.prod = c.prod := rfl
  rw [hprod d, g1] at f1
  cases f1
  refine ⟨g', by rw [hprod d', g2], fun ell m h0 h1 hm => ?_⟩
  rw [h.1] at h1
  rw [g3 ell m (by simpa using h0) h1 hm]
  by_cases he : ell = 0
  · subst he
    have hm0 : m = 0 := by simpa using hm
    rw [hm0, rot_scalar q, f2 0 0 le_rfl h1 (by simp)]
  · rw [if_neg he]
    unfold rot
    refine Finset.sum_eq_zero fun m' hm' => ?_
    rw [f2 ell m' h0 h1 (abs_le.2 (Finset.mem_Icc.1 hm')), if_neg he, zero_mul]

theorem plain_stationary (h : Plain c.toExt a) : ∃ f, Stationary c.toExt a f ∧ ∀ ell m, 1 ≤ ell → f ell m = 0 := by
  obtain ⟨M, hM, hn⟩ := h
  refine ⟨fun ell _ => if ell = 0 then (-M : ℂ) else 0, ⟨hn, ?_, ?_, ?_⟩, ?_⟩
  · intro ell m _ _ hm
    by_cases he : ell = 0
    · subst he
      have hm0 : m = 0 := by simpa using hm
      subst hm0
      simp
    · simp [he]
  · simpa using hM
  · intro m _
    simp
  · intro ell m h
    simp only [ite_eq_right_iff]
    intro h'
    omega

theorem plain_nice (hp : Spec.FrameErrors.Proper c.toExt a) (h : Plain c.toExt a) : Nice c.toExt none a := by
  obtain ⟨M, hM, hn⟩ := h
  obtain ⟨x, y, hx, hy, hxy, hne⟩ := length_times hp
  obtain ⟨k, k1, k2⟩ := Verif.Props.AbdFrame.nearest_spec (a.at'.map (·.t)) 0 hne
  obtain ⟨u, k3, -⟩ := id k2
  have hk : k < a.at'.length := by
    have := (List.getElem?_eq_some_iff.1 k3).1
    rwa [List.length_map] at this
  obtain ⟨f, f1, f2⟩ := hn a.at'[k] (List.getElem_mem hk)
  refine ⟨k, a.at'[k], f, k2, List.getElem?_eq_getElem hk, f1, fun ell m h1 h2 h3 h4 => ?_⟩
  rw [f2 ell m (by omega) h2 (abs_le.2 ⟨h3, h4⟩), if_neg (by omega)]

/-! ## The solver -/

theorem spins_directed (hp : Spec.FrameErrors.Proper c.toExt a) {n : Fin 3 → ℝ} (hn : norm3 n = 1) (h : Directed c.toExt a n) : ∃ s, a.at'.mapM (spin c.toExt) = .ok s ∧ s.map unit = a.at'.map fun _ => some n := by
  have : ∀ l : List Abd, (∀ d ∈ l, d ∈ a.at') → ∃ s, l.mapM (spin c.toExt) = .ok s ∧ s.map unit = l.map fun _ => some n := by
    intro l hl
    induction l with
    | nil => exact ⟨[], rfl, rfl⟩
    | cons d l ih =>
      obtain ⟨s, i1, i2⟩ := ih fun d' hd' => hl d' (by simp [hd'])
      have hd := hl d (by simp)
      obtain ⟨E, p1, p2, p3, hP, hE, hm⟩ := hp.massive d hd
      obtain ⟨v, k1, k2⟩ := spin_eq d E p1 p2 p3 hP hE hm
      obtain ⟨k, hk, k3⟩ := h d hd
      obtain rfl := (k2 _).1 k3
      have e : norm3 (k • n) = k := by
        have : norm3 (k • n) = √(k ^ 2 * (n 0 ^ 2 + n 1 ^ 2 + n 2 ^ 2)) := by
          unfold norm3
          congr 1
          simp only [Pi.smul_apply, smul_eq_mul]
          ring
        rw [this, Real.sqrt_mul (by positivity), Real.sqrt_sq hk.le]
        unfold norm3 at hn
        rw [hn, mul_one]
      have e2 : unit (some (k • n)) = some n := by
        unfold unit
        simp only [e]
        rw [if_neg hk.ne']
        congr 1
        funext i
        simp only [Pi.smul_apply, smul_eq_mul]
        field_simp
      refine ⟨some (k • n) :: s, ?_, ?_⟩
      · rw [List.mapM_cons, k1, ok_bind, i1, ok_bind]
        rfl
      · rw [List.map_cons, List.map_cons, i2, e2]
  exact this _ fun _ h => h

theorem charge_directed (hp : Spec.FrameErrors.Proper c.toExt a) {n : Fin 3 → ℝ} (hn : norm3 n = 1) (h : Directed c.toExt a n) : (rotationEnv c).charge a = .ok (a.at'.map fun _ => some n, times a) := by
  obtain ⟨s, s1, s2⟩ := spins_directed hp hn h
  show (a.at'.mapM (spin c.toExt) >>= _) = _
  rw [s1, ok_bind, s2]
  rfl

theorem from_directed (hp : Spec.FrameErrors.Proper c.toExt a) (n : Fin 3 → ℝ) : rotationFrom (a.at'.map fun _ => some n, times a) = match Superrest.spinRotor n with
    | none => .error .other
    | some q => .ok { Tr.one with rotation := q } := by
  obtain ⟨x, y, hx, hy, hxy, hne⟩ := length_times hp
  obtain ⟨k, k1, u, k2, -⟩ := Verif.Props.AbdFrame.nearest_spec (times a) 0 hne
  unfold rotationFrom
  rw [k1, ok_bind]
  have hk : k < a.at'.length := by
    have := (List.getElem?_eq_some_iff.1 k2).1
    unfold times at this
    rwa [List.length_map] at this
  have : (a.at'.map fun _ => some n)[k]? = some (some n) := by
    rw [List.getElem?_map, List.getElem?_eq_getElem hk]
    rfl
  simp only [this, Option.join_some, Option.bind_some]
  rfl

theorem turn_zero (q : Quaternion ℝ) : turn 0 q = { Tr.one with rotation := q } := by
  unfold turn Tr.one
  congr 1
  funext i
  simp [TransformKwargs.constantAs]

theorem turn_one : turn 0 1 = Tr.one := turn_zero 1

theorem upright_of_directed (h : Directed c.toExt a ![0, 0, 1]) : Upright c.toExt a := by
  intro d hd
  obtain ⟨k, hk, h⟩ := h d hd
  exact ⟨_, h, by simp, by simp, by simpa using hk⟩

theorem rotor_one : Rotor 1 := ⟨Verif.Rotation.unit_one, fun h => by
  have : (1 : ℝ) = -1 := congrArg (fun q : Quaternion ℝ => q.re) h
  norm_num at this⟩

theorem compose_left (ht : Turns c) (s1 s2 : ℝ) {q : Quaternion ℝ} (hq : Rotor q) : c.compose (turn s1 1) (turn s2 q) = .ok (turn (s1 + s2) q) := by
  have := ht.compose s1 s2 1 q rotor_one hq (by rwa [mul_one])
  rwa [mul_one] at this

theorem compose_right (ht : Turns c) (s1 s2 : ℝ) {q : Quaternion ℝ} (hq : Rotor q) : c.compose (turn s1 q) (turn s2 1) = .ok (turn (s1 + s2) q) := by
  have := ht.compose s1 s2 q 1 hq rotor_one (by rwa [one_mul])
  rwa [one_mul] at this

/-- The solver for the rotation needs one pass. -/
theorem rotation_turn (hmul : IsProduct a.ellMax c.mul) (ht : Turns c) (hp : Spec.FrameErrors.Proper c.toExt a) (hI : PositiveIntegral c.integrate) {n : Fin 3 → ℝ} (hn : norm3 n = 1) (h : Directed c.toExt a n)
    (hr : Superrest.spinRotor n = some q) (hq' : Rotor q) (hz : rotateVec (star q) n = ![0, 0, 1]) {N : Int} (hN : 0 < N) {tol : Err} (htol : (Err.fin 0).lt tol) :
    SuperrestLoop.rotation (rotationEnv c) a N tol = .ok (turn 0 q, [.inf, .fin 0]) := by
  have hq : UnitRotor q := hq'.1
  obtain ⟨b, b1, b2⟩ := ht.transform a 0 q hq
  have hpb := moved_proper hmul hq b2 hp
  have hdb := moved_directed hmul hp.ell hq b2 h
  rw [hz] at hdb
  have hcb := charge_directed hpb (show norm3 ![0, 0, 1] = 1 by simp [norm3]) hdb
  have hcomp : c.compose (turn 0 q) Tr.one = .ok (turn 0 q) := by
    have := compose_right ht 0 0 hq'
    rwa [add_zero, turn_one] at this
  have hclean : cleanRotation (turn 0 q) = turn 0 q := by
    rw [turn_zero]
    rfl
  have herr : (rotationEnv c).error b (b.at'.map fun _ => some ![0, 0, 1], times b) = .fin 0 := by
    show orNan (average c.toExt ((b.at'.map fun _ => some (![0, 0, 1] : Fin 3 → ℝ)).map fun v => v.map fun s => norm3 fun i => s i - (if i = 2 then 1 else 0)) (times b)) = _
    have e : (b.at'.map fun _ => some (![0, 0, 1] : Fin 3 → ℝ)).map (fun v => v.map fun s => norm3 fun i => s i - (if i = 2 then 1 else 0)) = b.at'.map fun _ => some 0 := by
      rw [List.map_map]
      apply List.map_congr_left
      intro d _
      refine congrArg some ((norm3_zero _).2 ?_)
      funext i
      fin_cases i <;> simp
    rw [e, average_zero hpb hI]
    rfl
  have hpass : pass (rotationEnv c) cleanRotation a 0 (Tr.one, none) = .ok ((turn 0 q, some (b.at'.map fun _ => some ![0, 0, 1], times b)), .fin 0) := by
    unfold pass present
    rw [if_pos rfl, charge_directed hp hn h, ok_bind]
    show (rotationFrom _ >>= _) = _
    rw [from_directed hp n, hr]
    show (c.compose { Tr.one with rotation := q } Tr.one >>= _) = _
    rw [← turn_zero, hcomp, ok_bind, hclean]
    show (c.transform a (turn 0 q) >>= _) = _
    rw [b1, ok_bind, hcb, ok_bind, herr]
    rfl
  exact run_one hN htol hpass

/-- The solver for the rotation raises an exception. -/
theorem rotation_fails (hp : Spec.FrameErrors.Proper c.toExt a) {n : Fin 3 → ℝ} (hn : norm3 n = 1) (h : Directed c.toExt a n) (hr : Superrest.spinRotor n = none) {N : Int} (hN : 0 < N) (tol : Err) :
    SuperrestLoop.rotation (rotationEnv c) a N tol = .error .other := by
  have hpass : pass (rotationEnv c) cleanRotation a 0 (Tr.one, none) = .error .other := by
    unfold pass present
    rw [if_pos rfl, charge_directed hp hn h, ok_bind]
    show (rotationFrom _ >>= _) = _
    rw [from_directed hp n, hr]
    rfl
  obtain ⟨m, hm⟩ : ∃ m, N.toNat = m + 1 := ⟨N.toNat - 1, by omega⟩
  unfold SuperrestLoop.rotation run
  rw [hm]
  have e0 : iterate (pass (rotationEnv c) cleanRotation a) Prod.fst (m + 1) tol (m + 1) { itr := 0, err := .inf, errs := [.inf], cur := (Tr.one, none), best := Tr.one } = .error .other := by
    refine (if_pos ⟨Nat.succ_pos _, fun h => by cases tol <;> exact h⟩).trans ?_
    show (pass (rotationEnv c) cleanRotation a 0 (Tr.one, none) >>= _) = _
    rw [hpass]
    rfl
  rw [e0]
  rfl

/-! ## The function -/

section
variable (hE : Exact c.map2salm) (hs : ConstSpline c.spline) (hI : PositiveIntegral c.integrate) (ht : Turns c) {o : Opts} (ho : Sensible o)
include hE hs hI ht ho

theorem solve_plain (hp : Spec.FrameErrors.Proper c.toExt a) (hc : Centered c.toExt a) (hpl : Plain c.toExt a) {st : Step} (h : st = .supertranslation ∨ st = .com) : (calls c o).solve st a = .ok Tr.one := by
  obtain ⟨x1, tx1, px1⟩ := ho.comTol
  obtain ⟨x3, tx3, px3⟩ := ho.supertranslationTol
  have h11 : c.compose Tr.one Tr.one = .ok Tr.one := by
    have := compose_left ht 0 0 rotor_one
    rwa [add_zero, turn_one] at this
  obtain ⟨f, hf, hf2⟩ := plain_stationary hpl
  rcases h with rfl | rfl
  · show SuperrestMap.supertranslation c o.supertranslation o.supertranslationTol a = _
    rw [tx3]
    exact supertranslation_one hE hs hp hf (fun ell m h2 _ _ => hf2 ell m (by omega)) ho.supertranslation px3
  · show (SuperrestLoop.com (comEnv c) a o.com o.comTol >>= _) = _
    rw [com_one hp hI hc h11 (ht.same a) ho.com (tol := o.comTol) (by rw [tx1]; exact px1)]
    rfl

theorem solve_done (hp : Spec.FrameErrors.Proper c.toExt a) (hc : Centered c.toExt a) (hpl : Plain c.toExt a) (hd : Directed c.toExt a ![0, 0, 1]) {st : Step} (h : st = .supertranslation ∨ st = .rotation ∨ st = .com) :
    (calls c o).solve st a = .ok Tr.one := by
  rcases h with rfl | rfl | rfl
  · exact solve_plain hE hs hI ht ho hp hc hpl (.inl rfl)
  · obtain ⟨x2, tx2, px2⟩ := ho.rotationTol
    have h11 : c.compose Tr.one Tr.one = .ok Tr.one := by
      have := compose_left ht 0 0 rotor_one
      rwa [add_zero, turn_one] at this
    show (SuperrestLoop.rotation (rotationEnv c) a o.rotation o.rotationTol >>= _) = _
    rw [rotation_one hp hI (upright_of_directed hd) h11 (ht.same a) ho.rotation (tol := o.rotationTol) (by rw [tx2]; exact px2)]
    rfl
  · exact solve_plain hE hs hI ht ho hp hc hpl (.inr rfl)

end

theorem inner_ok {o : Outer Data Tr} {w : Data} {v : SuperrestLoop.Inner Data Tr} {st : Step} {T b : Tr} {d : Data} (h : st = .supertranslation ∨ st = .rotation ∨ st = .com) (h1 : o.solve st v.abd = .ok T) (h2 : o.compose T v.bms = .ok b)
    (h3 : o.transform w b = .ok d) : SuperrestLoop.inner o false w v st = .ok { new := some T, bms := b, abd := d, rel := v.rel } := by
  unfold SuperrestLoop.inner find
  rcases h with rfl | rfl | rfl <;> simp only [h1, ok_bind, h2, h3, pure_eq_ok]

theorem inner_error {o : Outer Data Tr} {w : Data} {v : SuperrestLoop.Inner Data Tr} {e : PyErr} (h1 : o.solve .rotation v.abd = .error e) : SuperrestLoop.inner o false w v .rotation = .error e := by
  unfold SuperrestLoop.inner find
  simp only [h1]
  rfl

/-- The steps before the first rotation leave the data as they are, the first rotation gives `d'`, and so it stays. -/
theorem fold_turn {o : Outer Data Tr} {w d d' : Data} {b b' T : Tr} (order : List Step) (hk : ∀ st ∈ order, st = .supertranslation ∨ st = .rotation ∨ st = .com) (hr : Step.rotation ∈ order)
    (h1 : ∀ st, st = .supertranslation ∨ st = .com → o.solve st d = .ok Tr.one) (h2 : o.solve .rotation d = .ok T) (h3 : ∀ st, st = .supertranslation ∨ st = .rotation ∨ st = .com → o.solve st d' = .ok Tr.one)
    (c1 : o.compose Tr.one b = .ok b) (c2 : o.compose T b = .ok b') (c3 : o.compose Tr.one b' = .ok b') (t1 : o.transform w b = .ok d) (t2 : o.transform w b' = .ok d')
    (v : SuperrestLoop.Inner Data Tr) (hb : v.bms = b) (ha : v.abd = d) (hv : v.rel = .start) : ∃ new, order.foldlM (SuperrestLoop.inner o false w) v = .ok { new := new, bms := b', abd := d', rel := .start } := by
  induction order generalizing v with
  | nil => cases hr
  | cons st l ih =>
    have hst := hk st (by simp)
    by_cases e : st = .rotation
    · subst e
      rw [List.foldlM_cons, inner_ok hst (ha ▸ h2) (hb ▸ c2) t2, ok_bind]
      refine fold_one l (fun s' hs' => ⟨?_, ?_, h3 s' (hk s' (by simp [hs']))⟩) c3 t2 _ rfl rfl hv
      · rintro rfl
        rcases hk _ (List.mem_cons_of_mem _ hs') with h | h | h <;> cases h
      · rintro rfl
        rcases hk _ (List.mem_cons_of_mem _ hs') with h | h | h <;> cases h
    · have hr' : Step.rotation ∈ l := (List.mem_cons.1 hr).resolve_left fun h => e h.symm
      have hst' : st = .supertranslation ∨ st = .com := by
        rcases hst with h | h | h
        · exact .inl h
        · exact absurd h e
        · exact .inr h
      rw [List.foldlM_cons, inner_ok hst (ha ▸ h1 st hst') (hb ▸ c1) t1, ok_bind]
      exact ih (fun s' hs' => hk s' (by simp [hs'])) hr' _ rfl rfl hv

theorem fold_error {o : Outer Data Tr} {w d : Data} {b : Tr} {e : PyErr} (order : List Step) (hk : ∀ st ∈ order, st = .supertranslation ∨ st = .rotation ∨ st = .com) (hr : Step.rotation ∈ order)
    (h1 : ∀ st, st = .supertranslation ∨ st = .com → o.solve st d = .ok Tr.one) (h2 : o.solve .rotation d = .error e)
    (c1 : o.compose Tr.one b = .ok b) (t1 : o.transform w b = .ok d) (v : SuperrestLoop.Inner Data Tr) (hb : v.bms = b) (ha : v.abd = d) : order.foldlM (SuperrestLoop.inner o false w) v = .error e := by
  induction order generalizing v with
  | nil => cases hr
  | cons st l ih =>
    have hst := hk st (by simp)
    by_cases q : st = .rotation
    · subst q
      rw [List.foldlM_cons, inner_error (ha ▸ h2)]
      rfl
    · have hr' : Step.rotation ∈ l := (List.mem_cons.1 hr).resolve_left fun h => q h.symm
      have hst' : st = .supertranslation ∨ st = .com := by
        rcases hst with h | h | h
        · exact .inl h
        · exact absurd h q
        · exact .inr h
      rw [List.foldlM_cons, inner_ok hst (ha ▸ h1 st hst') (hb ▸ c1) t1, ok_bind]
      exact ih (fun s' hs' => hk s' (by simp [hs'])) hr' _ rfl rfl

theorem superrest_first {o : Opts} (ho : Sensible o) {order : List Step} {abd abd' w d d' : Data} {b b' b'' back : Tr} {new : Option Tr}
    (hfold : order.foldlM (SuperrestLoop.inner (calls c o) false w) { new := none, bms := b, abd := d, rel := .start } = .ok { new := new, bms := b', abd := d', rel := .start }) (h0 : c.transform w b = .ok d)
    (he : errors c.toExt none d' = .ok (.fin 0, .fin 0, .fin 0)) (hback : c.compose back b' = .ok b'') (habd : c.transform abd b'' = .ok abd') :
    superrest (calls c o) false order o.passes (o.comTol, o.rotationTol, o.supertranslationTol) abd w b back = .ok (abd', b'', .tuple (.fin 0) (.fin 0) (.fin 0)) := by
  obtain ⟨x1, tx1, px1⟩ := ho.comTol
  obtain ⟨x2, tx2, px2⟩ := ho.rotationTol
  obtain ⟨x3, tx3, px3⟩ := ho.supertranslationTol
  obtain ⟨n, hn⟩ : ∃ n, o.passes.toNat = n + 1 := ⟨o.passes.toNat - 1, by have := ho.passes; omega⟩
  have stop : ∀ k st, converged (o.comTol, o.rotationTol, o.supertranslationTol) st.v.rel → outer (calls c o) false order (n + 1) (o.comTol, o.rotationTol, o.supertranslationTol) w k st = .ok st := by
    intro k st hc
    cases k with
    | zero => rfl
    | succ k => exact if_neg fun h => h.2 hc
  have e : outer (calls c o) false order (n + 1) (o.comTol, o.rotationTol, o.supertranslationTol) w (n + 1) { itr := 0, v := { new := none, bms := b, abd := w, rel := .start }, rels := [.start], best := none, bestRel := .start } =
      .ok { itr := 1, v := { new := new, bms := b', abd := d', rel := .tuple (.fin 0) (.fin 0) (.fin 0) }, rels := [.start, .tuple (.fin 0) (.fin 0) (.fin 0)], best := some b', bestRel := .tuple (.fin 0) (.fin 0) (.fin 0) } := by
    refine (if_pos ⟨Nat.succ_pos _, fun h => h⟩).trans ?_
    have e1 : firstPass (calls c o) w { itr := 0, v := { new := none, bms := b, abd := w, rel := .start }, rels := [.start], best := none, bestRel := .start } = .ok { new := none, bms := b, abd := d, rel := .start } := by
      unfold firstPass
      rw [if_pos rfl]
      show (c.transform w b >>= _) = _
      rw [h0]
      rfl
    rw [e1, ok_bind, hfold, ok_bind]
    have e2 : relAfter (calls c o) false order { new := new, bms := b', abd := d', rel := .start } = .ok (.tuple (.fin 0) (.fin 0) (.fin 0)) := by
      unfold relAfter
      show (errors c.toExt none d' >>= _) = _
      rw [he]
      rfl
    rw [e2, ok_bind]
    have e3 : (Rel.tuple (.fin 0) (.fin 0) (.fin 0)).mean.lt (pyMin ([Rel.start].map Rel.mean)) := trivial
    simp only [if_pos e3]
    exact stop n _ ⟨by rw [tx1]; exact px1, by rw [tx2]; exact px2, by rw [tx3]; exact px3⟩
  unfold superrest
  rw [hn, e]
  show (c.compose back b' >>= _) = _
  rw [hback, ok_bind]
  show (c.transform abd b'' >>= _) = _
  rw [habd]
  rfl

theorem superrest_error {o : Opts} (ho : Sensible o) {order : List Step} {abd w d : Data} {b back : Tr} {x : PyErr}
    (hfold : order.foldlM (SuperrestLoop.inner (calls c o) false w) { new := none, bms := b, abd := d, rel := .start } = .error x) (h0 : c.transform w b = .ok d) :
    superrest (calls c o) false order o.passes (o.comTol, o.rotationTol, o.supertranslationTol) abd w b back = .error x := by
  obtain ⟨n, hn⟩ : ∃ n, o.passes.toNat = n + 1 := ⟨o.passes.toNat - 1, by have := ho.passes; omega⟩
  have e : outer (calls c o) false order (n + 1) (o.comTol, o.rotationTol, o.supertranslationTol) w (n + 1) { itr := 0, v := { new := none, bms := b, abd := w, rel := .start }, rels := [.start], best := none, bestRel := .start } = .error x := by
    refine (if_pos ⟨Nat.succ_pos _, fun h => h⟩).trans ?_
    have e1 : firstPass (calls c o) w { itr := 0, v := { new := none, bms := b, abd := w, rel := .start }, rels := [.start], best := none, bestRel := .start } = .ok { new := none, bms := b, abd := d, rel := .start } := by
      unfold firstPass
      rw [if_pos rfl]
      show (c.transform w b >>= _) = _
      rw [h0]
      rfl
    rw [e1, ok_bind, hfold]
    rfl
  unfold superrest
  rw [hn, e]
  rfl

section
variable (hE : Exact c.map2salm) (hs : ConstSpline c.spline) (hI : PositiveIntegral c.integrate) (hprod : ∀ d, c.prod d = c.mul 2 (-2) d.sigma (bar 2 d.sigmaDot)) (ht : Turns c) {o : Opts} (ho : Sensible o) (order : List Step)
  (hk : ∀ s ∈ order, s = .supertranslation ∨ s = .rotation ∨ s = .com) (hrot : Step.rotation ∈ order) (t0 padding : ℝ) (abd w : Data) (hw : window t0 padding abd = .ok w) (hmul : IsProduct w.ellMax c.mul)
  (hp : Spec.FrameErrors.Proper c.toExt w) (hc : Centered c.toExt w) (hpl : Plain c.toExt w)
include hE hs hI hprod ht ho hk hrot hw hmul hp hc hpl

/-- C105: for a stationary object at the origin with a spin in any direction `n` but `-z`, `map_to_superrest_frame` finds, with any order of the solvers, the rotation of the frame that takes the `z` axis to `n`, and no other change. The errors are 0. -/
theorem tilted_partial (n : Fin 3 → ℝ) (hn : n 0 ^ 2 + n 1 ^ 2 + n 2 ^ 2 = 1) (hd : Directed c.toExt w n) (hz : n ≠ ![0, 0, -1]) :
    ∃ q abd', UnitRotor q ∧ rotateVec q ![0, 0, 1] = n ∧ c.transform abd (turn 0 q) = .ok abd' ∧ Moved q 0 abd' abd ∧ mapToSuperrest c o order t0 padding abd = .ok (abd', turn 0 q, .tuple (.fin 0) (.fin 0) (.fin 0)) := by
  have hn1 : norm3 n = 1 := by
    unfold norm3
    rw [hn, Real.sqrt_one]
  have hv : AbdTransform.vabs n = 1 := hn1
  obtain ⟨q, q1, q0, q3, q4⟩ := Verif.Props.Superrest.spin_rotor n (by
    rintro ⟨k, hk0, rfl⟩
    apply hz
    have : k = 1 := by
      have h : k ^ 2 = 1 := by simpa using hn
      nlinarith [sq_nonneg (k - 1)]
    rw [this])
  have q2 : UnitRotor q := q0.1
  rw [hv, inv_one, one_smul] at q3
  rw [hv] at q4
  have u1 := Verif.Rotation.unit_one
  obtain ⟨d, d1, d2⟩ := ht.transform w t0 1 u1
  obtain ⟨d', e1, e2⟩ := ht.transform w t0 q q2
  obtain ⟨abd', f1, f2⟩ := ht.transform abd 0 q q2
  have hdd : Directed c.toExt d n := by
    have := moved_directed hmul hp.ell u1 d2 hd
    rwa [star_one, Verif.Props.AbdTransform.rotateVec_one] at this
  have hdd' : Directed c.toExt d' ![0, 0, 1] := by
    have := moved_directed hmul hp.ell q2 e2 hd
    rwa [q4] at this
  have pd := moved_proper hmul u1 d2 hp
  have pd' := moved_proper hmul q2 e2 hp
  have cd := moved_centered hmul hp.ell u1 d2 hc
  have cd' := moved_centered hmul hp.ell q2 e2 hc
  have ld := moved_plain hmul hprod hp.ell u1 d2 hpl
  have ld' := moved_plain hmul hprod hp.ell q2 e2 hpl
  obtain ⟨x2, tx2, px2⟩ := ho.rotationTol
  have hsol : (calls c o).solve .rotation d = .ok (turn 0 q) := by
    show (SuperrestLoop.rotation (rotationEnv c) d o.rotation o.rotationTol >>= _) = _
    rw [rotation_turn (by rw [d2.1]; exact hmul) ht pd hI hn1 hdd q1 q0 q4 ho.rotation (tol := o.rotationTol) (by rw [tx2]; exact px2)]
    rfl
  have k1 : c.compose Tr.one (turn t0 1) = .ok (turn t0 1) := by
    have := compose_left ht 0 t0 rotor_one
    rwa [zero_add, turn_one] at this
  have k2 : c.compose (turn 0 q) (turn t0 1) = .ok (turn t0 q) := by
    have := compose_right ht 0 t0 q0
    rwa [zero_add] at this
  have k3 : c.compose Tr.one (turn t0 q) = .ok (turn t0 q) := by
    have := compose_left ht 0 t0 q0
    rwa [zero_add, turn_one] at this
  have k4 : c.compose (timeTranslation t0) Tr.one = .ok (turn t0 1) := by
    have := compose_right ht t0 0 rotor_one
    rwa [add_zero, turn_one] at this
  have k5 : c.compose (timeTranslation (-t0)) (turn t0 q) = .ok (turn 0 q) := by
    have := compose_left ht (-t0) t0 q0
    rwa [neg_add_cancel] at this
  obtain ⟨new, hfold⟩ := fold_turn (o := calls c o) (w := w) order hk hrot (fun st h => solve_plain hE hs hI ht ho pd cd ld h) hsol (fun st h => solve_done hE hs hI ht ho pd' cd' ld' hdd' h) k1 k2 k3 d1 e1
    { new := none, bms := turn t0 1, abd := d, rel := .start } rfl rfl rfl
  refine ⟨q, abd', q2, q3, f1, f2, ?_⟩
  unfold mapToSuperrest
  rw [hw, ok_bind, k4, ok_bind]
  exact superrest_first ho hfold d1 (errors_zero pd' hI ⟨cd', upright_of_directed hdd', plain_nice pd' ld'⟩) k5 f1

/-- C105 (refutation): if the spin has the direction `-z`, where there is nothing to turn according to the documentation, an exception is raised, with all orders, tolerances and numbers of iterations. -/
theorem antiparallel_raises (hd : Directed c.toExt w ![0, 0, -1]) : mapToSuperrest c o order t0 padding abd = .error .other := by
  have u1 := Verif.Rotation.unit_one
  obtain ⟨d, d1, d2⟩ := ht.transform w t0 1 u1
  have hdd : Directed c.toExt d ![0, 0, -1] := by
    have := moved_directed hmul hp.ell u1 d2 hd
    rwa [star_one, Verif.Props.AbdTransform.rotateVec_one] at this
  have pd := moved_proper hmul u1 d2 hp
  have cd := moved_centered hmul hp.ell u1 d2 hc
  have ld := moved_plain hmul hprod hp.ell u1 d2 hpl
  have hsol : (calls c o).solve .rotation d = .error .other := by
    show (SuperrestLoop.rotation (rotationEnv c) d o.rotation o.rotationTol >>= _) = _
    rw [rotation_fails pd (show norm3 ![0, 0, -1] = 1 by simp [norm3]) hdd (Verif.Props.Superrest.spin_rotor_nan 1 zero_le_one) ho.rotation o.rotationTol]
    rfl
  have k1 : c.compose Tr.one (turn t0 1) = .ok (turn t0 1) := by
    have := compose_left ht 0 t0 rotor_one
    rwa [zero_add, turn_one] at this
  have k4 : c.compose (timeTranslation t0) Tr.one = .ok (turn t0 1) := by
    have := compose_right ht t0 0 rotor_one
    rwa [add_zero, turn_one] at this
  unfold mapToSuperrest
  rw [hw, ok_bind, k4, ok_bind]
  exact superrest_error ho (fold_error order hk hrot (fun st h => solve_plain hE hs hI ht ho pd cd ld h) hsol k1 d1 _ rfl rfl) d1

end

/-! ## The hypotheses can be met -/

/-- The data at one time in the rotated frame. -/
noncomputable def rotated (q : Quaternion ℝ) (s : ℝ) (d : Abd) : Abd := ⟨d.t - s, fun l => rot l q (d.psi1 l), fun l => rot l q (d.psi2 l), fun l => rot l q (d.sigma l), fun l => rot l q (d.sigmaDot l)⟩

open Classical in
/-- Rotations and time translations, with products that are those of functions on the sphere. -/
noncomputable def turnCalls (map2salm : List ℂ → Int → Int → Row ℂ) (spline : List ℝ → List ℝ → ℝ → ℝ) : Calls where
  mul := Verif.Props.Balance.prod 8
  dflt := 1
  prod d := Verif.Props.Balance.prod 8 2 (-2) d.sigma (bar 2 d.sigmaDot)
  integrate := Verif.Props.AbdFrame.trap
  map2salm := map2salm
  spline := spline
  compose S T := .ok { super := fun i => S.super i + T.super i, rotation := T.rotation * S.rotation, boost := S.boost + T.boost }
  transform a T := if T = Tr.one then .ok a else .ok { a with at' := a.at'.map (rotated T.rotation ((T.super 0).re / √(4 * Real.pi))) }

theorem constant_re (s : ℝ) : (TransformKwargs.constantAs s).re / √(4 * Real.pi) = s := by
  have h : √(4 * Real.pi) ≠ 0 := by positivity
  rw [TransformKwargs.constantAs, Complex.ofReal_re]
  field_simp

theorem forall₂_map {A B : Type} {R : B → A → Prop} (f : A → B) (h : ∀ x, R (f x) x) : ∀ l : List A, List.Forall₂ R (l.map f) l
  | [] => .nil
  | _ :: l => .cons (h _) (forall₂_map f h l)

theorem turn_turns (map2salm : List ℂ → Int → Int → Row ℂ) (spline : List ℝ → List ℝ → ℝ → ℝ) : Turns (turnCalls map2salm spline) := by
  refine ⟨fun s1 s2 q1 q2 _ _ _ => ?_, fun a s q _ => ?_, fun a => if_pos rfl⟩
  · simp only [turnCalls, turn, add_zero]
    congr 2
    funext i
    by_cases h : i = 0
    · rw [if_pos h, if_pos h, if_pos h, TransformKwargs.constantAs, TransformKwargs.constantAs, TransformKwargs.constantAs, ← Complex.ofReal_add]
      congr 1
      ring
    · rw [if_neg h, if_neg h, if_neg h, add_zero]
  · by_cases h : turn s q = Tr.one
    · refine ⟨a, if_pos h, rfl, ?_⟩
      have hq : q = 1 := congrArg Tr.rotation h
      have hs : s = 0 := by
        have := congrArg (fun T : Tr => (T.super 0).re / √(4 * Real.pi)) h
        simp only [turn, if_true, constant_re] at this
        rw [this]
        simp [Tr.one]
      subst hq
      subst hs
      have e : ∀ (f : Modes) (k ell m : Int), |k| ≤ ell → ell ≤ a.ellMax → |m| ≤ ell → f ell m = rot ell 1 (f ell) m := fun f k ell m _ _ hm => (Verif.Rotation.rot_one ell _ m (abs_le.1 hm)).symm
      have := forall₂_map (R := Rotated a.ellMax 1 0) id (fun d => ⟨(sub_zero _).symm, e _ 1, e _ 0, e _ 2, e _ 2⟩) a.at'
      rwa [List.map_id] at this
    · refine ⟨_, if_neg h, rfl, ?_⟩
      have e : ((turn s q).super 0).re / √(4 * Real.pi) = s := by
        simp only [turn, if_true, constant_re]
      rw [e]
      exact forall₂_map _ (fun d => ⟨rfl, fun _ _ _ _ _ => rfl, fun _ _ _ _ _ => rfl, fun _ _ _ _ _ => rfl, fun _ _ _ _ _ => rfl⟩) a.at'

theorem prod_zero (b k l : Int) (g : Modes) : Verif.Props.Balance.prod b k l (fun _ _ => 0) g = fun _ _ => 0 := by
  have h0 : ∀ θ φ, Verif.Spec.Sphere.field k 0 b (fun _ _ => 0) θ φ = 0 := by
    intro θ φ
    simp [Verif.Spec.Sphere.field]
  funext ell m
  unfold Verif.Props.Balance.prod
  simp only [h0, zero_mul, mul_zero]
  simp [Verif.Spec.Sphere.solid]

section
variable (map2salm : List ℂ → Int → Int → Row ℂ) (spline : List ℝ → List ℝ → ℝ → ℝ)

theorem turn_proper : Spec.FrameErrors.Proper (turnCalls map2salm spline).toExt (holes 1) := by
  refine ⟨(holes_proper 1).two, (holes_proper 1).inc, fun d hd => ?_, (holes_proper 1).ell⟩
  obtain ⟨E, p1, p2, p3, h, k⟩ := (holes_proper 1).massive d hd
  obtain ⟨t, rfl⟩ := hole_of_mem hd
  refine ⟨E, p1, p2, p3, ?_, k⟩
  rw [← h]
  simp only [turnCalls, holeExt, bondiFourMomentum, massAspect, hole, prod_zero]

theorem turn_centered : Centered (turnCalls map2salm spline).toExt (holes 1) := by
  intro d hd
  obtain ⟨t, rfl⟩ := hole_of_mem hd
  rw [← hole_com 1 t]
  simp only [turnCalls, holeExt, bondiCoMCharge, hole, prod_zero]

theorem turn_directed : Directed (turnCalls map2salm spline).toExt (holes 1) ![0, 0, 1] := by
  intro d hd
  obtain ⟨t, rfl⟩ := hole_of_mem hd
  have pos : 0 < 1 / √3 / √(4 * Real.pi) / (1 / √(4 * Real.pi)) ^ 2 := by positivity
  refine ⟨_, pos, ?_⟩
  obtain ⟨N1, N2, N3, J1, J2, J3, E, p1, p2, p3, h1, h2, h3, h4⟩ := hole_spin 1 t
  refine ⟨N1, N2, N3, J1, J2, J3, E, p1, p2, p3, ?_, ?_, ?_, ?_⟩
  · rw [← h1]
    simp only [turnCalls, holeExt, bondiBoostCharge, hole, prod_zero]
  · rw [← h2]
    simp only [turnCalls, holeExt, bondiAngularMomentum, hole, prod_zero]
  · rw [← h3]
    simp only [turnCalls, holeExt, bondiFourMomentum, massAspect, hole, prod_zero]
  · rw [← h4]
    funext i
    fin_cases i <;> simp

theorem turn_plain : Plain (turnCalls map2salm spline).toExt (holes 1) := by
  refine ⟨1, one_pos, fun d hd => ?_⟩
  obtain ⟨t, rfl⟩ := hole_of_mem hd
  refine ⟨_, rfl, fun ell m _ _ hm => ?_⟩
  by_cases h : ell = 0
  · subst h
    have hm0 : m = 0 := by simpa using hm
    subst hm0
    simp [turnCalls, hole, prod_zero, ethGHP, bar]
  · simp [turnCalls, hole, prod_zero, ethGHP, bar, h]

end

theorem turn_window {abd : Data} (a2 : Moved q 0 abd (holes 1)) : window 0 250 abd = .ok abd := by
  have e : times abd = [0, 1] := by
    have := moved_times a2
    unfold times
    rw [this]
    simp [holes, hole]
  have hl : abd.at'.length = 2 := by
    rw [a2.2.length_eq]
    rfl
  unfold window
  rw [e]
  have n1 : AbdFrame.nearest [0, 1] (0 - (250 + 200)) = .ok 0 := by
    norm_num [AbdFrame.nearest, AbdFrame.argmin, AbdFrame.argminFrom]
  have n2 : AbdFrame.nearest [0, 1] (0 + (250 + 200)) = .ok 1 := by
    norm_num [AbdFrame.nearest, AbdFrame.argmin, AbdFrame.argminFrom]
  rw [n1, ok_bind, n2, ok_bind]
  show Except.ok { abd with at' := abd.at'.take 2 } = _
  rw [List.take_of_length_le (by omega)]

theorem turned_holes (hE : Exact c.map2salm) (hs : ConstSpline c.spline) (hI : PositiveIntegral c.integrate) (hprod : ∀ d, c.prod d = c.mul 2 (-2) d.sigma (bar 2 d.sigmaDot)) (ht : Turns c) (hmul : IsProduct (holes 1).ellMax c.mul)
    (h1 : Spec.FrameErrors.Proper c.toExt (holes 1)) (h2 : Centered c.toExt (holes 1)) (h3 : Directed c.toExt (holes 1) ![0, 0, 1]) (h4 : Plain c.toExt (holes 1)) (hq : UnitRotor q) {n : Fin 3 → ℝ} (hqn : rotateVec (star q) ![0, 0, 1] = n) :
    ∃ abd, c.transform (holes 1) (turn 0 q) = .ok abd ∧ ∀ o, Sensible o →
      (n = ![0, 0, -1] → mapToSuperrest c o [.supertranslation, .rotation, .com] 0 250 abd = .error .other) ∧
      (n ≠ ![0, 0, -1] → ∃ r abd', rotateVec r ![0, 0, 1] = n ∧ mapToSuperrest c o [.supertranslation, .rotation, .com] 0 250 abd = .ok (abd', turn 0 r, .tuple (.fin 0) (.fin 0) (.fin 0))) := by
  obtain ⟨abd, a1, a2⟩ := ht.transform (holes 1) 0 q hq
  have hw := turn_window a2
  have hp := moved_proper hmul hq a2 h1
  have hc := moved_centered hmul h1.ell hq a2 h2
  have hd := moved_directed hmul h1.ell hq a2 h3
  have hpl := moved_plain hmul hprod h1.ell hq a2 h4
  have hl := Verif.Props.GridModes.rotateVec_length (star q) (Verif.Rotation.unit_star hq) ![0, 0, 1]
  rw [Fin.sum_univ_three, Fin.sum_univ_three] at hl
  rw [hqn] at hd hl
  have hmul' : IsProduct abd.ellMax c.mul := by
    rw [a2.1]
    exact hmul
  refine ⟨abd, a1, fun o ho => ⟨fun h => ?_, fun h => ?_⟩⟩
  · rw [h] at hd
    exact antiparallel_raises hE hs hI hprod ht ho _ (by simp) (by simp) 0 250 abd abd hw hmul' hp hc hpl hd
  · obtain ⟨r, abd', -, r2, -, -, r3⟩ := tilted_partial hE hs hI hprod ht ho [.supertranslation, .rotation, .com] (by simp) (by simp) 0 250 abd abd hw hmul' hp hc hpl n (hl.trans (by simp)) hd h
    exact ⟨r, abd', r2, r3⟩

/-- A spinning black hole seen from a frame that is rotated in any way: the data and parameters meet all hypotheses of `tilted_partial`, or, if the spin points to `-z`, of `antiparallel_raises`. -/
example (q : Quaternion ℝ) (hq : UnitRotor q) : ∃ c abd, c.transform (holes 1) (turn 0 q) = .ok abd ∧ ∀ o, Sensible o →
    (rotateVec (star q) ![0, 0, 1] = ![0, 0, -1] → mapToSuperrest c o [.supertranslation, .rotation, .com] 0 250 abd = .error .other) ∧
    (rotateVec (star q) ![0, 0, 1] ≠ ![0, 0, -1] → ∃ r abd', rotateVec r ![0, 0, 1] = rotateVec (star q) ![0, 0, 1] ∧ mapToSuperrest c o [.supertranslation, .rotation, .com] 0 250 abd = .ok (abd', turn 0 r, .tuple (.fin 0) (.fin 0) (.fin 0))) := by
  obtain ⟨map2salm, hE⟩ : ∃ map2salm, Exact map2salm := Verif.Props.GridMultiply.exact_exists
  obtain ⟨spline, hs⟩ : ∃ spline, ConstSpline spline := ⟨fun _ y _ => y.headD 0, fun t c x h => by
    obtain ⟨n, hn⟩ : ∃ n, t.length = n + 1 := ⟨t.length - 1, by omega⟩
    rw [hn]; rfl⟩
  have hI : PositiveIntegral (turnCalls map2salm spline).integrate := fun y t hl hp h2 hn => ⟨Verif.Props.AbdFrame.trap_nonneg y t hl hp hn, Verif.Props.AbdFrame.trap_zero y t hl hp h2 hn⟩
  obtain ⟨abd, h⟩ := turned_holes (c := turnCalls map2salm spline) hE hs hI (fun _ => rfl) (turn_turns map2salm spline) (Verif.Props.Balance.prod_product 8) (turn_proper map2salm spline) (turn_centered map2salm spline)
    (turn_directed map2salm spline) (turn_plain map2salm spline) hq rfl
  exact ⟨_, abd, h⟩

end Verif.Props.TiltedSpin
