import Verif.Spec.TargetRotation
import Verif.Props.AngMomCov
import Verif.Lemmas.BmsLorentz
import Mathlib.Analysis.Calculus.ContDiff.Basic
import Mathlib.Analysis.Calculus.Deriv.Mul
import Mathlib.Analysis.Calculus.Deriv.Add
import Mathlib.Analysis.Calculus.IteratedDeriv.Defs
import Mathlib.Analysis.SpecialFunctions.ExpDeriv
import Mathlib.LinearAlgebra.Matrix.ToLin
import Mathlib.LinearAlgebra.FiniteDimensional.Basic

/-!
# C101: rotation to a target strain
-/

namespace Verif.Props.TargetRotation
open Verif Verif.Modes Verif.ModeCalc Verif.TargetRotation Verif.Spec.AngMom Verif.Spec.TargetRotation Verif.SuperrestLoop
open Verif.Props.AngMomCov Verif.Props.ModeCalc Verif.Props.FluxCovariance
open Verif.AbdTransform (rotateVec)
open Verif.Spec.Rotation (UnitRotor rot)

variable {ext : Ext} {L : Int} {f f' : ℝ → Row ℂ} {s : ℝ} {Q : Quaternion ℝ}

/-! ## Turned fields -/

theorem row_rotated (h : Spec.TargetRotation.Turned L Q f f') (s : ℝ) : RowRotated 2 L Q (f s) (f' s) := fun ell m h1 h2 h3 h4 => h s ell m h1 h2 h3 h4

theorem dot_turned (h : Spec.TargetRotation.Turned L Q f f') (hf : ∀ i, Differentiable ℝ fun s => f s i) : Spec.TargetRotation.Turned L Q (dot f) (dot f') := by
  intro s ell m h1 h2 h3 h4
  show deriv (fun u => f' u (lmIndex ell m 2)) s = _
  have e : (fun u => f' u (lmIndex ell m 2)) = fun u => rot ell Q (modes f u ell) m := funext fun u => h u ell m h1 h2 h3 h4
  rw [e]
  refine HasDerivAt.deriv ?_
  show HasDerivAt (fun u => ∑ m' ∈ Finset.Icc (-ell) ell, f u (lmIndex ell m' 2) * Verif.Wigner.Dlm ell Q m' m) (∑ m' ∈ Finset.Icc (-ell) ell, deriv (fun u => f u (lmIndex ell m' 2)) s * Verif.Wigner.Dlm ell Q m' m) s
  exact HasDerivAt.fun_sum fun m' _ => ((hf _ s).hasDerivAt).mul_const _

theorem smooth_dot {n : Nat} (h : ∀ i, ContDiff ℝ (n + 1 : Nat) fun s => f s i) (i : Int) : ContDiff ℝ (n : Nat) fun s => dot f s i := by
  have := (contDiff_succ_iff_deriv (n := n) (𝕜 := ℝ) (f := fun s => f s i)).1 (by exact_mod_cast h i)
  exact this.2.2

theorem smooth_diff {n : Nat} (h : ∀ i, ContDiff ℝ (n + 1 : Nat) fun s => f s i) (i : Int) : Differentiable ℝ fun s => f s i :=
  (h i).differentiable (by simp)

/-! ## The angular velocity -/

/-- `angular_velocity` is the angular velocity. -/
theorem velocity_model (hg : Spec.TargetRotation.Good ext) (hr : Spec.TargetRotation.Regular L f s) :
    ∃ w, angularVelocity ext.solve (f s) (dot f s) (LMRange 2 L) = .ok w ∧ Spec.TargetRotation.Velocity L f s w ∧ ∀ w', Spec.TargetRotation.Velocity L f s w' → w' = w := by
  have hinj : ∀ v : Vec, (∀ i, ∑ j, LLMatrix (f s) (LMRange 2 L) i j * v j = 0) → v = 0 := by
    intro v hv
    by_contra h0
    apply hr v h0
    have := quad_form 2 L (by norm_num) (f s) v v
    refine this.symm.trans ?_
    refine Finset.sum_eq_zero fun i _ => ?_
    simp only [mul_assoc, ← Finset.mul_sum, hv, mul_zero]
  obtain ⟨x, hx⟩ := hg.solvable (LLMatrix (f s) (LMRange 2 L)) (fun a => if a = 0 then (LdtVector (f s) (dot f s) (LMRange 2 L)).1 else if a = 1 then (LdtVector (f s) (dot f s) (LMRange 2 L)).2.1 else (LdtVector (f s) (dot f s) (LMRange 2 L)).2.2) hinj
  have h : angularVelocity ext.solve (f s) (dot f s) (LMRange 2 L) = .ok (fun a => -x a) := by
    unfold angularVelocity
    simp only
    rw [hx]
    rfl
  have hmin := angular_velocity_minimises 2 L (by norm_num) (f s) (dot f s) ext.solve hg.solves _ h
  refine ⟨_, h, hmin, fun w' hw' => ?_⟩
  refine angular_velocity_unique 2 L (by norm_num) (f s) (dot f s) ext.solve hg.solves _ h w' hr ?_
  exact le_antisymm (hw' _) (hmin _)

theorem regular_turned (hQ : UnitRotor Q) (h : Spec.TargetRotation.Turned L Q f f') (hr : Spec.TargetRotation.Regular L f s) : Spec.TargetRotation.Regular L f' s := by
  intro v hv h0
  have e := LLMatrix_rotated (a := 2) (b := L) (by norm_num) hQ (row_rotated h s) v v
  rw [quad_form 2 L (by norm_num), quad_form 2 L (by norm_num)] at e
  refine hr (rotateVec Q v) (fun hz => hv ?_) (e.symm.trans h0)
  have := congrArg (rotateVec (star Q)) hz
  rw [← Props.AbdTransform.rotateVec_mul, star_mul_unit hQ, Props.AbdTransform.rotateVec_one] at this
  rw [this]
  have e0 : (0 : Vec) = (0 : ℝ) • (0 : Vec) := by simp
  rw [e0, Verif.Lemmas.Bms.rotateVec_smul, zero_smul]
  simp

theorem velocity_turned (hg : Spec.TargetRotation.Good ext) (hQ : UnitRotor Q) (h : Spec.TargetRotation.Turned L Q f f') (hf : ∀ i, Differentiable ℝ fun s => f s i) (hr : Spec.TargetRotation.Regular L f s) {w w' : Vec}
    (hw : Spec.TargetRotation.Velocity L f s w) (hw' : Spec.TargetRotation.Velocity L f' s w') : w = rotateVec Q w' := by
  obtain ⟨x, h1, -, h3⟩ := velocity_model hg hr
  obtain ⟨x', h1', -, h3'⟩ := velocity_model hg (regular_turned hQ h hr)
  rw [h3 w hw, h3' w' hw']
  exact angular_velocity_rotated (by norm_num) hQ (row_rotated h s) (row_rotated (dot_turned h hf) s) ext.solve hg.solves hr x x' h1 h1'

/-! ## Directions -/

theorem norm_pos {v : Vec} (hv : v ≠ 0) : 0 < v 0 ^ 2 + v 1 ^ 2 + v 2 ^ 2 := by
  by_contra h
  apply hv
  have h0 : v 0 = 0 := by nlinarith [sq_nonneg (v 0), sq_nonneg (v 1), sq_nonneg (v 2)]
  have h1 : v 1 = 0 := by nlinarith [sq_nonneg (v 0), sq_nonneg (v 1), sq_nonneg (v 2)]
  have h2 : v 2 = 0 := by nlinarith [sq_nonneg (v 0), sq_nonneg (v 1), sq_nonneg (v 2)]
  funext i
  fin_cases i <;> assumption

theorem unit_parallel {v w : Vec} (h : Spec.TargetRotation.Parallel v w) : unit w = unit v := by
  obtain ⟨c, hc, h⟩ := h
  funext i
  unfold unit
  rw [h 0, h 1, h 2, h i, show (c * v 0) ^ 2 + (c * v 1) ^ 2 + (c * v 2) ^ 2 = c ^ 2 * (v 0 ^ 2 + v 1 ^ 2 + v 2 ^ 2) by ring, Real.sqrt_mul (sq_nonneg c), Real.sqrt_sq hc.le, mul_div_mul_left _ _ hc.ne']

theorem parallel_unit {v w : Vec} (hv : v ≠ 0) (hw : w ≠ 0) (h : unit v = unit w) : Spec.TargetRotation.Parallel v w := by
  have h1 := Real.sqrt_pos.2 (norm_pos hv)
  have h2 := Real.sqrt_pos.2 (norm_pos hw)
  refine ⟨√(w 0 ^ 2 + w 1 ^ 2 + w 2 ^ 2) / √(v 0 ^ 2 + v 1 ^ 2 + v 2 ^ 2), div_pos h2 h1, fun i => ?_⟩
  have e := congrFun h i
  unfold unit at e
  rw [div_eq_div_iff h1.ne' h2.ne'] at e
  field_simp
  linarith

theorem norm_rotate (hQ : UnitRotor Q) (v : Vec) : rotateVec Q v 0 ^ 2 + rotateVec Q v 1 ^ 2 + rotateVec Q v 2 ^ 2 = v 0 ^ 2 + v 1 ^ 2 + v 2 ^ 2 := by
  have e := rotateVec_adjoint Q v (rotateVec Q v)
  rw [← Props.AbdTransform.rotateVec_mul, star_mul_unit hQ, Props.AbdTransform.rotateVec_one, Fin.sum_univ_three, Fin.sum_univ_three] at e
  linarith

theorem unit_rotate (hQ : UnitRotor Q) (v : Vec) : unit (rotateVec Q v) = rotateVec Q (unit v) := by
  have e : unit v = (√(v 0 ^ 2 + v 1 ^ 2 + v 2 ^ 2))⁻¹ • v := by
    funext i
    simp [unit, div_eq_inv_mul]
  rw [e, Verif.Lemmas.Bms.rotateVec_smul]
  funext i
  show rotateVec Q v i / √(rotateVec Q v 0 ^ 2 + rotateVec Q v 1 ^ 2 + rotateVec Q v 2 ^ 2) = (√(v 0 ^ 2 + v 1 ^ 2 + v 2 ^ 2))⁻¹ * rotateVec Q v i
  rw [norm_rotate hQ, div_eq_inv_mul]

theorem mapM_all {α β : Type} (l : List α) (F : α → Py β) (G : α → β) (h : ∀ x ∈ l, F x = .ok (G x)) : l.mapM F = .ok (l.map G) := by
  induction l with
  | nil => rfl
  | cons a l ih =>
    rw [List.mapM_cons, h a (by simp), ok_bind, ih fun x hx => h x (by simp [hx]), ok_bind]
    rfl

theorem inv_unit {R : Quaternion ℝ} (h : UnitRotor R) : R⁻¹ = star R := inv_eq_of_mul_eq_one_right (mul_star_unit h)

theorem unit_star {R : Quaternion ℝ} (h : UnitRotor R) : UnitRotor (star R) := by
  unfold UnitRotor at *
  rw [Quaternion.normSq_star, h]

/-- The directions at all times. -/
theorem directions_model (hg : Spec.TargetRotation.Good ext) (ts : List ℝ) (hr : ∀ s ∈ ts, Spec.TargetRotation.Regular L f s) :
    ∃ W : ℝ → Vec, directions ext L f ts = .ok (ts.map fun s => unit (W s)) ∧ ∀ s ∈ ts, Spec.TargetRotation.Velocity L f s (W s) ∧ ∀ w', Spec.TargetRotation.Velocity L f s w' → w' = W s := by
  classical
  refine ⟨fun s => if h : s ∈ ts then (velocity_model hg (hr s h)).choose else 0, ?_, fun s hs => ?_⟩
  · refine mapM_all ts _ _ fun s hs => ?_
    unfold direction
    rw [(velocity_model hg (hr s hs)).choose_spec.1, ok_bind]
    simp only [dif_pos hs]
    rfl
  · simp only [dif_pos hs]
    exact (velocity_model hg (hr s hs)).choose_spec.2

theorem distances_self (v : List Vec) : ∀ y ∈ distances v v, y = 0 := by
  unfold distances
  induction v with
  | nil => simp
  | cons a v ih =>
    intro y hy
    rw [List.zipWith_cons_cons] at hy
    rcases List.mem_cons.1 hy with rfl | hy
    · simp
    · exact ih y hy

/-! ## The loop -/

variable {g w : Wave}

/-- **C101**: if one rotation takes the directions of the angular velocity of the news to those of the second derivative of the target, the function finds such a rotation in one pass, with error 0. -/
theorem aligned (hg : Spec.TargetRotation.Good ext) (hs : Spec.TargetRotation.Smooth w) (Q0 : Quaternion ℝ) (h0 : UnitRotor Q0) (N : Int) (hN : 0 < N) (tol : ℝ) (htol : 0 < tol) (ht : w.t.headD 0 ≠ w.t.getLastD 0)
    (hr : ∀ s ∈ w.t, Spec.TargetRotation.Regular w.ellMax (dot w.strain) s ∧ Spec.TargetRotation.Regular g.ellMax (dot (dot g.strain)) s)
    (hv : ∀ s ∈ w.t, ∀ v u, Spec.TargetRotation.Velocity w.ellMax (dot w.strain) s v → Spec.TargetRotation.Velocity g.ellMax (dot (dot g.strain)) s u → v ≠ 0 ∧ u ≠ 0 ∧ Spec.TargetRotation.Parallel (rotateVec Q0 v) u) :
    ∃ T, rotationToTarget ext g w N (.fin tol) = .ok (T, [.inf, .fin 0]) ∧ T.boost = 0 ∧ (∀ i, T.super i = 0) ∧ UnitRotor T.rotation ∧
      ∀ f', Spec.TargetRotation.Turned w.ellMax T.rotation w.strain f' → ∀ s ∈ w.t, ∀ v u, Spec.TargetRotation.Velocity w.ellMax (dot f') s v → Spec.TargetRotation.Velocity g.ellMax (dot (dot g.strain)) s u → Spec.TargetRotation.Parallel v u := by
  obtain ⟨V, v1, v2⟩ := directions_model hg w.t fun s hs => (hr s hs).1
  obtain ⟨U, u1, u2⟩ := directions_model hg w.t fun s hs => (hr s hs).2
  have hUV : w.t.map (fun s => unit (U s)) = (w.t.map fun s => unit (V s)).map (rotateVec Q0) := by
    rw [List.map_map]
    refine List.map_congr_left fun s hs => ?_
    rw [unit_parallel (hv s hs _ _ (v2 s hs).1 (u2 s hs).1).2.2, unit_rotate h0]
    rfl
  obtain ⟨r1, r2⟩ := hg.align _ _ w.t Q0 h0 hUV
  generalize hR : ext.align (w.t.map fun s => unit (V s)) (w.t.map fun s => unit (U s)) w.t = R at r1 r2
  have hQ : UnitRotor (star R) := unit_star r1
  have hd1 : ∀ i, Differentiable ℝ fun s => w.strain s i := smooth_diff (n := 2) hs
  have hd2 : ∀ i, Differentiable ℝ fun s => dot w.strain s i := smooth_diff (n := 1) (smooth_dot (n := 2) hs)
  -- what holds for each turned strain
  have key : ∀ f', Spec.TargetRotation.Turned w.ellMax (star R) w.strain f' → ∀ s ∈ w.t, Spec.TargetRotation.Regular w.ellMax (dot f') s ∧ ∀ v, Spec.TargetRotation.Velocity w.ellMax (dot f') s v → v ≠ 0 ∧ unit v = unit (U s) := by
    intro f' hf' s hs
    have hdt := dot_turned hf' hd1
    refine ⟨regular_turned hQ hdt (hr s hs).1, fun v hvv => ?_⟩
    have e := velocity_turned hg hQ hdt hd2 (hr s hs).1 (v2 s hs).1 hvv
    have e2 : v = rotateVec R (V s) := by
      rw [e, ← Props.AbdTransform.rotateVec_mul, mul_star_unit r1, Props.AbdTransform.rotateVec_one]
    refine ⟨fun hz => (hv s hs _ _ (v2 s hs).1 (u2 s hs).1).1 ?_, ?_⟩
    · rw [e, hz]
      have e0 : (0 : Vec) = (0 : ℝ) • (0 : Vec) := by simp
      rw [e0, Verif.Lemmas.Bms.rotateVec_smul, zero_smul]
      simp
    · rw [e2, unit_rotate r1]
      rw [List.map_map] at r2
      exact (List.map_inj_left.1 r2 s hs).symm
  refine ⟨{ Tr.one with rotation := star R }, ?_, rfl, fun _ => rfl, hQ, ?_⟩
  · unfold rotationToTarget
    rw [show targetNews g = dot (dot g.strain) from rfl, u1, ok_bind]
    unfold SuperrestLoop.rotation
    obtain ⟨n, hn⟩ : ∃ n, N.toNat = n + 1 := ⟨N.toNat - 1, by omega⟩
    have lt0 : ∀ e, SuperrestLoop.Err.lt .inf e = False := fun e => by cases e <;> rfl
    let w' : Wave := { w with strain := fun s => ext.turn w.ellMax (star R) (w.strain s) }
    have hk := key w'.strain (hg.turn w.ellMax (star R) w.strain hQ)
    obtain ⟨V', v1', v2'⟩ := directions_model hg w.t fun s hs => (hk s hs).1
    have hV' : (w.t.map fun s => unit (V' s)) = w.t.map fun s => unit (U s) := List.map_congr_left fun s hs => ((hk s hs).2 _ (v2' s hs).1).2
    rw [hV'] at v1'
    have hp : pass (env ext (w.t.map fun s => unit (U s)) w.t) cleanRotation w 0 (Tr.one, none) = .ok (({ Tr.one with rotation := star R }, some (w.t.map fun s => unit (U s))), .fin 0) := by
      unfold pass present
      rw [if_pos rfl]
      have c1 : (env ext (w.t.map fun s => unit (U s)) w.t).charge w = .ok (w.t.map fun s => unit (V s)) := v1
      rw [c1, ok_bind]
      have c2 : (env ext (w.t.map fun s => unit (U s)) w.t).fromCharge (w.t.map fun s => unit (V s)) = .ok { Tr.one with rotation := star R } := by
        show Except.ok (rotationFromVectors ext _ _ _) = _
        unfold rotationFromVectors
        rw [hR, inv_unit r1]
      rw [c2, ok_bind]
      have c3 : (env ext (w.t.map fun s => unit (U s)) w.t).compose { Tr.one with rotation := star R } Tr.one = .ok { Tr.one with rotation := star R } := by
        show Except.ok { Tr.one with rotation := 1 * star R } = _
        rw [one_mul]
      rw [c3, ok_bind]
      have c4 : (env ext (w.t.map fun s => unit (U s)) w.t).transform w (cleanRotation { Tr.one with rotation := star R }) = .ok w' := rfl
      rw [c4, ok_bind]
      have c5 : (env ext (w.t.map fun s => unit (U s)) w.t).charge w' = .ok (w.t.map fun s => unit (U s)) := v1'
      rw [c5, ok_bind]
      have c6 : (env ext (w.t.map fun s => unit (U s)) w.t).error w' (w.t.map fun s => unit (U s)) = .fin 0 := by
        show error ext _ w' _ = _
        unfold error
        rw [if_neg (fun h => ht h.symm)]
        rw [hg.zero _ _ fun y hy => ?_, zero_div]
        exact distances_self _ y hy
      rw [c6]
      rfl
    have c0 : ∀ (m n : Nat) (st : SuperrestLoop.St (Tr × Option (List Vec)) Tr), st.err = .fin 0 → SuperrestLoop.iterate (pass (env ext (w.t.map fun s => unit (U s)) w.t) cleanRotation w) Prod.fst n (.fin tol) m st = .ok st := fun m n st hs => by
      cases m with
      | zero => rfl
      | succ m =>
        rw [SuperrestLoop.iterate, if_neg]
        rintro ⟨-, h⟩
        rw [hs] at h
        exact h htol
    unfold SuperrestLoop.run
    rw [hn, SuperrestLoop.iterate, if_pos ⟨by simp, by rw [lt0]; simp⟩]
    rw [hp, ok_bind]
    show (iterate _ _ _ _ _ _ >>= _) = _
    rw [c0 _ _ _ rfl, ok_bind]
    have k1 : SuperrestLoop.Err.lt (.fin 0) (SuperrestLoop.pyMin [.inf]) := trivial
    rw [if_pos k1]
    rfl
  · intro f' hf' s hs v u hv' hu
    obtain ⟨k1, k2⟩ := (key f' hf' s hs).2 v hv'
    have hu' := (u2 s hs).2 u hu
    refine parallel_unit k1 (hv s hs _ u (v2 s hs).1 hu).2.1 ?_
    rw [k2, hu']

/-! ## Fields that turn uniformly -/

/-- The field turns with the angular velocity `v`. -/
def Uniform (L : Int) (f : ℝ → Row ℂ) (v : Vec) : Prop := ∀ s ell m, 2 ≤ ell → ell ≤ L → -ell ≤ m → m ≤ ell → rate f s ell m = -Complex.I * vL v (modes f s) ell m

theorem deriv_L (hf : ∀ i, Differentiable ℝ fun s => f s i) (c : Fin 3) (s : ℝ) (ell m : Int) : HasDerivAt (fun u => Spec.AngMom.L c (modes f u) ell m) (Spec.AngMom.L c (modes (dot f) s) ell m) s := by
  have h : ∀ m, HasDerivAt (fun u => modes f u ell m) (modes (dot f) s ell m) s := fun m => (hf _ s).hasDerivAt
  have hr : HasDerivAt (fun u => raise (modes f u) ell m) (raise (modes (dot f) s) ell m) s := (h (m - 1)).const_mul _
  have hl : HasDerivAt (fun u => lower (modes f u) ell m) (lower (modes (dot f) s) ell m) s := (h (m + 1)).const_mul _
  unfold Spec.AngMom.L
  split_ifs
  · exact (hr.add hl).div_const 2
  · exact (hr.sub hl).div_const _
  · exact (h m).const_mul _

theorem uniform_dot {v : Vec} (hf : ∀ i, Differentiable ℝ fun s => f s i) (h : Uniform L f v) : Uniform L (dot f) v := by
  intro s ell m h1 h2 h3 h4
  have e : (fun u => dot f u (lmIndex ell m 2)) = fun u => -Complex.I * vL v (modes f u) ell m := funext fun u => h u ell m h1 h2 h3 h4
  show deriv (fun u => dot f u (lmIndex ell m 2)) s = _
  rw [e]
  refine HasDerivAt.deriv (HasDerivAt.const_mul _ ?_)
  exact HasDerivAt.fun_sum fun c _ => (deriv_L hf c s ell m).const_mul _

theorem uniform_velocity (hg : Spec.TargetRotation.Good ext) {v : Vec} (h : Uniform L f v) (hr : Spec.TargetRotation.Regular L f s) {w : Vec} (hw : Spec.TargetRotation.Velocity L f s w) : w = v := by
  obtain ⟨x, h1, -, h3⟩ := velocity_model hg hr
  rw [h3 w hw]
  exact angular_velocity_recovers 2 L (by norm_num) (f s) (dot f s) ext.solve hg.solves v x (fun ell m a1 a2 a3 a4 => h s ell m a1 a2 a3 a4) h1 hr

/-- **C101**: data that are a target with a uniform rotation, seen from axes that are turned by any constant rotation, are turned so that their angular velocity has the direction of that of the target. -/
theorem rotated_copy_partial (hg : Spec.TargetRotation.Good ext) (hs : Spec.TargetRotation.Smooth w) (hs' : Spec.TargetRotation.Smooth g) (hL : w.ellMax = g.ellMax) (Q0 : Quaternion ℝ) (h0 : UnitRotor Q0)
    (hT : Spec.TargetRotation.Turned g.ellMax Q0 g.strain w.strain) (v : Vec) (hv0 : v ≠ 0) (hu : Uniform g.ellMax g.strain v)
    (hr : ∀ s ∈ w.t, Spec.TargetRotation.Regular g.ellMax (dot g.strain) s ∧ Spec.TargetRotation.Regular g.ellMax (dot (dot g.strain)) s)
    (N : Int) (hN : 0 < N) (tol : ℝ) (htol : 0 < tol) (ht : w.t.headD 0 ≠ w.t.getLastD 0) :
    ∃ T, rotationToTarget ext g w N (.fin tol) = .ok (T, [.inf, .fin 0]) ∧ UnitRotor T.rotation ∧
      ∀ f', Spec.TargetRotation.Turned w.ellMax T.rotation w.strain f' → ∀ s ∈ w.t, ∀ v', Spec.TargetRotation.Velocity w.ellMax (dot f') s v' → Spec.TargetRotation.Parallel v' v := by
  have d1 : ∀ i, Differentiable ℝ fun s => g.strain s i := smooth_diff (n := 2) hs'
  have d2 : ∀ i, Differentiable ℝ fun s => dot g.strain s i := smooth_diff (n := 1) (smooth_dot (n := 2) hs')
  have u1 := uniform_dot d1 hu
  have u2 := uniform_dot d2 u1
  have t1 := dot_turned hT d1
  have hvel : ∀ s ∈ w.t, Spec.TargetRotation.Velocity g.ellMax (dot (dot g.strain)) s v := by
    intro s hs
    obtain ⟨x, -, h2, -⟩ := velocity_model hg (hr s hs).2
    rwa [uniform_velocity hg u2 (hr s hs).2 h2] at h2
  have hvel1 : ∀ s ∈ w.t, Spec.TargetRotation.Velocity g.ellMax (dot g.strain) s v := by
    intro s hs
    obtain ⟨x, -, h2, -⟩ := velocity_model hg (hr s hs).1
    rwa [uniform_velocity hg u1 (hr s hs).1 h2] at h2
  obtain ⟨T, e1, -, -, e2, e3⟩ := aligned hg hs Q0 h0 N hN tol htol ht (fun s hs => ⟨by rw [hL]; exact regular_turned h0 t1 (hr s hs).1, (hr s hs).2⟩) (by
    intro s hs x u hx hu'
    rw [hL] at hx
    have ex := velocity_turned hg h0 t1 d2 (hr s hs).1 (hvel1 s hs) hx
    have eu := uniform_velocity hg u2 (hr s hs).2 hu'
    refine ⟨fun hz => hv0 ?_, eu ▸ hv0, ?_⟩
    · rw [ex, hz]
      have e0 : (0 : Vec) = (0 : ℝ) • (0 : Vec) := by simp
      rw [e0, Verif.Lemmas.Bms.rotateVec_smul, zero_smul]
      simp
    · rw [← ex, eu]
      exact ⟨1, one_pos, fun i => (one_mul _).symm⟩)
  exact ⟨T, e1, e2, fun f' hf' s hs v' hv' => e3 f' hf' s hs v' v hv' (hvel s hs)⟩

/-! ## A target that is its own data -/

/-- The modes `(2, 2)` and `(2, -2)` with the frequencies `α` and `β`. -/
noncomputable def two (A : ℂ) (α : ℝ) (B : ℂ) (β : ℝ) : ℝ → Row ℂ := fun s i =>
  if i = 4 then A * Complex.exp ((-α * Complex.I) * s) else if i = 0 then B * Complex.exp ((-β * Complex.I) * s) else 0

theorem deriv_wave (A : ℂ) (α : ℝ) (s : ℝ) : HasDerivAt (fun u : ℝ => A * Complex.exp ((-α * Complex.I) * u)) (-α * Complex.I * A * Complex.exp ((-α * Complex.I) * s)) s := by
  have h1 : HasDerivAt (fun z : ℂ => (-α * Complex.I) * z) (-α * Complex.I) (s : ℂ) := by
    simpa using (hasDerivAt_id (s : ℂ)).const_mul (-α * Complex.I)
  have h2 := (h1.cexp.comp_ofReal).const_mul A
  have e : -α * Complex.I * A * Complex.exp ((-α * Complex.I) * s) = A * (Complex.exp ((-α * Complex.I) * s) * (-α * Complex.I)) := by ring
  rw [e]
  exact h2

theorem dot_two (A : ℂ) (α : ℝ) (B : ℂ) (β : ℝ) : dot (two A α B β) = two (-α * Complex.I * A) α (-β * Complex.I * B) β := by
  funext s i
  show deriv (fun u => two A α B β u i) s = _
  unfold two
  split_ifs
  · exact (deriv_wave A α s).deriv
  · exact (deriv_wave B β s).deriv
  · simp

theorem smooth_two (A : ℂ) (α : ℝ) (B : ℂ) (β : ℝ) (i : Int) : ContDiff ℝ 3 fun s => two A α B β s i := by
  have h : ∀ (A : ℂ) (α : ℝ), ContDiff ℝ 3 fun s : ℝ => A * Complex.exp ((-α * Complex.I) * s) := by
    intro A α
    exact contDiff_const.mul ((contDiff_const.mul Complex.ofRealCLM.contDiff).cexp)
  unfold two
  split_ifs
  · exact h A α
  · exact h B β
  · exact contDiff_const

theorem inner_self_two (h : Fn) : (Spec.AngMom.inner 2 2 h h).re = Complex.normSq (h 2 (-2)) + Complex.normSq (h 2 (-1)) + Complex.normSq (h 2 0) + Complex.normSq (h 2 1) + Complex.normSq (h 2 2) := by
  unfold Spec.AngMom.inner
  have e : Finset.Icc (-2 : Int) 2 = {-2, -1, 0, 1, 2} := by decide
  rw [Finset.Icc_self, Finset.sum_singleton, e]
  simp only [Complex.normSq_apply]
  rw [Finset.sum_insert (by decide), Finset.sum_insert (by decide), Finset.sum_insert (by decide), Finset.sum_insert (by decide), Finset.sum_singleton]
  simp
  ring

theorem modes_two (A : ℂ) (α : ℝ) (B : ℂ) (β : ℝ) (s : ℝ) : modes (two A α B β) s 2 2 = A * Complex.exp ((-α * Complex.I) * s) ∧ modes (two A α B β) s 2 (-2) = B * Complex.exp ((-β * Complex.I) * s) ∧
    modes (two A α B β) s 2 1 = 0 ∧ modes (two A α B β) s 2 0 = 0 ∧ modes (two A α B β) s 2 (-1) = 0 ∧ modes (two A α B β) s 2 3 = 0 ∧ modes (two A α B β) s 2 (-3) = 0 := by
  refine ⟨?_, ?_, ?_, ?_, ?_, ?_, ?_⟩ <;> simp [modes, two, lmIndex]

theorem vL_two (h : Fn) (w : Vec) (a b : ℂ) (h2 : h 2 2 = a) (hm2 : h 2 (-2) = b) (h1 : h 2 1 = 0) (h0 : h 2 0 = 0) (hm1 : h 2 (-1) = 0) (h3 : h 2 3 = 0) (hm3 : h 2 (-3) = 0) :
    vL w h 2 2 = 2 * w 2 * a ∧ vL w h 2 1 = (w 0 + Complex.I * w 1) * a ∧ vL w h 2 0 = 0 ∧ vL w h 2 (-1) = (w 0 - Complex.I * w 1) * b ∧ vL w h 2 (-2) = -2 * w 2 * b := by
  have r4 : Real.sqrt 4 = 2 := by
    rw [show (4 : ℝ) = 2 ^ 2 by norm_num]
    exact Real.sqrt_sq (by norm_num)
  have hI : ∀ z : ℂ, z / (2 * Complex.I) = -Complex.I * z / 2 := by
    intro z
    rw [div_eq_div_iff (by simp) (by norm_num)]
    linear_combination (2 * z) * Complex.I_mul_I
  refine ⟨?_, ?_, ?_, ?_, ?_⟩ <;> unfold vL <;> rw [Fin.sum_univ_three, L_zero, L_one, L_two] <;> unfold raise lower zop <;> norm_num [h2, hm2, h1, h0, hm1, h3, hm3, r4, hI] <;> ring

theorem normSq_wave (A : ℂ) (α s : ℝ) : Complex.normSq (A * Complex.exp ((-α * Complex.I) * s)) = Complex.normSq A := by
  have e : (-α * Complex.I) * (s : ℂ) = ((-α * s : ℝ) : ℂ) * Complex.I := by push_cast; ring
  rw [Complex.normSq_mul, e, Complex.normSq_eq_norm_sq (Complex.exp _), Complex.norm_exp_ofReal_mul_I]
  ring

theorem normSq_plane (x y : ℝ) : Complex.normSq ((x : ℂ) + Complex.I * y) = x ^ 2 + y ^ 2 ∧ Complex.normSq ((x : ℂ) - Complex.I * y) = x ^ 2 + y ^ 2 := by
  constructor <;> simp [Complex.normSq_apply] <;> ring

theorem regular_two (A : ℂ) (α : ℝ) (B : ℂ) (β : ℝ) (hA : A ≠ 0) (s : ℝ) : Spec.TargetRotation.Regular 2 (two A α B β) s := by
  intro v hv h0
  obtain ⟨m2, mm2, m1, m0, mm1, m3, mm3⟩ := modes_two A α B β s
  obtain ⟨e2, e1, e0, em1, em2⟩ := vL_two _ v _ _ m2 mm2 m1 m0 mm1 m3 mm3
  rw [inner_self_two, e2, e1, e0, em1, em2] at h0
  simp only [Complex.normSq_mul (2 * (v 2 : ℂ)), Complex.normSq_mul (-2 * (v 2 : ℂ)), Complex.normSq_mul ((v 0 : ℂ) + Complex.I * v 1), Complex.normSq_mul ((v 0 : ℂ) - Complex.I * v 1), normSq_wave, (normSq_plane (v 0) (v 1)).1, (normSq_plane (v 0) (v 1)).2] at h0
  have hp : 0 < Complex.normSq A := Complex.normSq_pos.2 hA
  have hq : 0 ≤ Complex.normSq B := Complex.normSq_nonneg B
  have hz : Complex.normSq (2 * (v 2 : ℂ)) = 4 * v 2 ^ 2 := by
    rw [Complex.normSq_mul, Complex.normSq_ofReal]
    norm_num
    ring
  have hz' : Complex.normSq (-2 * (v 2 : ℂ)) = 4 * v 2 ^ 2 := by
    rw [neg_mul, Complex.normSq_neg, hz]
  rw [hz, hz', map_zero] at h0
  have hn := norm_pos hv
  have k1 : 0 ≤ 4 * v 2 ^ 2 * Complex.normSq B := by positivity
  have k2 : 0 ≤ (v 0 ^ 2 + v 1 ^ 2) * Complex.normSq B := by positivity
  have k3 : 0 < (v 0 ^ 2 + v 1 ^ 2) * Complex.normSq A + 4 * v 2 ^ 2 * Complex.normSq A := by
    have : 0 < (v 0 ^ 2 + v 1 ^ 2 + v 2 ^ 2) * Complex.normSq A := mul_pos hn hp
    have h3 : 0 ≤ v 2 ^ 2 * Complex.normSq A := by positivity
    nlinarith
  linarith

theorem change_two (A : ℂ) (α : ℝ) (B : ℂ) (β : ℝ) (s : ℝ) (w : Vec) : change 2 2 (modes (two A α B β) s) (rate (two A α B β) s) w =
    Complex.normSq A * (2 * w 2 - α) ^ 2 + Complex.normSq B * (2 * w 2 + β) ^ 2 + (Complex.normSq A + Complex.normSq B) * (w 0 ^ 2 + w 1 ^ 2) := by
  obtain ⟨m2, mm2, m1, m0, mm1, m3, mm3⟩ := modes_two A α B β s
  have hr : rate (two A α B β) s = modes (two (-α * Complex.I * A) α (-β * Complex.I * B) β) s := by
    rw [← dot_two]
    rfl
  obtain ⟨r2, rm2, r1, r0, rm1, -, -⟩ := modes_two (-α * Complex.I * A) α (-β * Complex.I * B) β s
  obtain ⟨e2, e1, e0, em1, em2⟩ := vL_two _ w _ _ m2 mm2 m1 m0 mm1 m3 mm3
  unfold change
  rw [inner_self_two, hr, e2, e1, e0, em1, em2, r2, rm2, r1, r0, rm1]
  have x2 : -α * Complex.I * A * Complex.exp ((-α * Complex.I) * s) + Complex.I * (2 * w 2 * (A * Complex.exp ((-α * Complex.I) * s))) = (((2 * w 2 - α : ℝ) : ℂ) * Complex.I) * (A * Complex.exp ((-α * Complex.I) * s)) := by
    push_cast
    ring
  have xm2 : -β * Complex.I * B * Complex.exp ((-β * Complex.I) * s) + Complex.I * (-2 * w 2 * (B * Complex.exp ((-β * Complex.I) * s))) = -(((2 * w 2 + β : ℝ) : ℂ) * Complex.I) * (B * Complex.exp ((-β * Complex.I) * s)) := by
    push_cast
    ring
  rw [x2, xm2]
  rw [zero_add, zero_add, zero_add, mul_zero, map_zero, Complex.normSq_mul Complex.I, Complex.normSq_mul Complex.I, Complex.normSq_I, one_mul, one_mul, Complex.normSq_mul ((w 0 : ℂ) + _), Complex.normSq_mul ((w 0 : ℂ) - _), (normSq_plane _ _).1, (normSq_plane _ _).2]
  rw [Complex.normSq_mul (-(((2 * w 2 + β : ℝ) : ℂ) * Complex.I)), Complex.normSq_mul (((2 * w 2 - α : ℝ) : ℂ) * Complex.I), Complex.normSq_neg, Complex.normSq_mul _ Complex.I, Complex.normSq_mul _ Complex.I, Complex.normSq_I, Complex.normSq_ofReal, Complex.normSq_ofReal, normSq_wave, normSq_wave]
  ring

theorem velocity_two (A : ℂ) (α : ℝ) (B : ℂ) (β : ℝ) (hA : A ≠ 0) (s c : ℝ) (hc : 2 * c * (Complex.normSq A + Complex.normSq B) = α * Complex.normSq A - β * Complex.normSq B) : Spec.TargetRotation.Velocity 2 (two A α B β) s ![0, 0, c] := by
  intro w
  rw [change_two, change_two]
  have hp : 0 < Complex.normSq A := Complex.normSq_pos.2 hA
  have hq : 0 ≤ Complex.normSq B := Complex.normSq_nonneg B
  have c0 : (![0, 0, c] : Vec) 0 = 0 := rfl
  have c1 : (![0, 0, c] : Vec) 1 = 0 := rfl
  have c2 : (![0, 0, c] : Vec) 2 = c := rfl
  rw [c0, c1, c2]
  have e : Complex.normSq A * (2 * w 2 - α) ^ 2 + Complex.normSq B * (2 * w 2 + β) ^ 2 - (Complex.normSq A * (2 * c - α) ^ 2 + Complex.normSq B * (2 * c + β) ^ 2) = 4 * (Complex.normSq A + Complex.normSq B) * (w 2 - c) ^ 2 := by
    linear_combination (4 * w 2 - 4 * c) * hc
  have k1 : 0 ≤ 4 * (Complex.normSq A + Complex.normSq B) * (w 2 - c) ^ 2 := by positivity
  have k2 : 0 ≤ (Complex.normSq A + Complex.normSq B) * (w 0 ^ 2 + w 1 ^ 2) := by positivity
  nlinarith

/-- The mode `(2, 2)` with amplitude 4 and frequency 2, and the mode `(2, -2)` with amplitude 1 and frequency 4. -/
noncomputable def own : Wave where
  t := [0, 1]
  strain := two 4 2 1 4
  ellMax := 2

theorem own_news (s : ℝ) : Spec.TargetRotation.Regular 2 (dot own.strain) s ∧ Spec.TargetRotation.Velocity 2 (dot own.strain) s ![0, 0, 2 / 5] := by
  show Spec.TargetRotation.Regular 2 (dot (two 4 2 1 4)) s ∧ Spec.TargetRotation.Velocity 2 (dot (two 4 2 1 4)) s ![0, 0, 2 / 5]
  rw [dot_two]
  refine ⟨regular_two _ _ _ _ (by simp) s, velocity_two _ _ _ _ (by simp) s _ ?_⟩
  simp [Complex.normSq_apply]
  norm_num

theorem own_target (s : ℝ) : Spec.TargetRotation.Regular 2 (dot (dot own.strain)) s ∧ Spec.TargetRotation.Velocity 2 (dot (dot own.strain)) s ![0, 0, -1 / 2] := by
  show Spec.TargetRotation.Regular 2 (dot (dot (two 4 2 1 4))) s ∧ Spec.TargetRotation.Velocity 2 (dot (dot (two 4 2 1 4))) s ![0, 0, -1 / 2]
  rw [dot_two, dot_two]
  refine ⟨regular_two _ _ _ _ (by simp) s, velocity_two _ _ _ _ (by simp) s _ ?_⟩
  simp [Complex.normSq_apply]
  norm_num

theorem velocity_only (hg : Spec.TargetRotation.Good ext) (hr : Spec.TargetRotation.Regular L f s) {v u : Vec} (hv : Spec.TargetRotation.Velocity L f s v) (hu : Spec.TargetRotation.Velocity L f s u) : v = u := by
  obtain ⟨x, -, -, h⟩ := velocity_model hg hr
  rw [h v hv, h u hu]

/-- Half a turn about the `x` axis. -/
def half : Quaternion ℝ := ⟨0, 1, 0, 0⟩

theorem half_parts : half.re = 0 ∧ half.imI = 1 ∧ half.imJ = 0 ∧ half.imK = 0 := ⟨rfl, rfl, rfl, rfl⟩

/-- **C101** (refutation): the strain of the target is differentiated twice, that of the data once. With its own strain as the target, data are turned upside down. -/
theorem own_strain_upside_down (hg : Spec.TargetRotation.Good ext) (N : Int) (hN : 0 < N) (tol : ℝ) (htol : 0 < tol) :
    ∃ T, rotationToTarget ext own own N (.fin tol) = .ok (T, [.inf, .fin 0]) ∧ rotateVec T.rotation ![0, 0, 1] = ![0, 0, -1] := by
  obtain ⟨h1, h2, h3, h4⟩ := half_parts
  have hi : UnitRotor half := by
    unfold UnitRotor
    rw [Quaternion.normSq_def', h1, h2, h3, h4]
    norm_num
  have hflip : ∀ c : ℝ, rotateVec half ![0, 0, c] = ![0, 0, -c] := by
    intro c
    have a0 : (![0, 0, c] : Vec) 0 = 0 := rfl
    have a1 : (![0, 0, c] : Vec) 1 = 0 := rfl
    have a2 : (![0, 0, c] : Vec) 2 = c := rfl
    funext i
    fin_cases i
    · show rotateVec _ _ 0 = 0
      rw [Verif.Lemmas.Bms.rotateVec_0, a0, a1, a2, h1, h2, h3, h4]
      norm_num
    · show rotateVec _ _ 1 = 0
      rw [Verif.Lemmas.Bms.rotateVec_1, a0, a1, a2, h1, h2, h3, h4]
      norm_num
    · show rotateVec _ _ 2 = -c
      rw [Verif.Lemmas.Bms.rotateVec_2, a0, a1, a2, h1, h2, h3, h4]
      norm_num
  have hs : Spec.TargetRotation.Smooth own := smooth_two _ _ _ _
  have d1 : ∀ i, Differentiable ℝ fun s => own.strain s i := smooth_diff (n := 2) hs
  have d2 : ∀ i, Differentiable ℝ fun s => dot own.strain s i := smooth_diff (n := 1) (smooth_dot (n := 2) hs)
  have ne : ∀ c : ℝ, c ≠ 0 → (![0, 0, c] : Vec) ≠ 0 := fun c hc h => hc (congrFun h 2)
  obtain ⟨T, e1, -, -, e2, e3⟩ := aligned (g := own) hg hs half hi N hN tol htol (by show (0 : ℝ) ≠ 1; norm_num) (fun s _ => ⟨(own_news s).1, (own_target s).1⟩) (by
    intro s _ v u hv hu
    rw [velocity_only hg (own_news s).1 hv (own_news s).2, velocity_only hg (own_target s).1 hu (own_target s).2]
    refine ⟨ne _ (by norm_num), ne _ (by norm_num), ?_⟩
    rw [hflip]
    refine ⟨5 / 4, by norm_num, fun i => ?_⟩
    fin_cases i
    · show (0 : ℝ) = 5 / 4 * 0; norm_num
    · show (0 : ℝ) = 5 / 4 * 0; norm_num
    · show (-1 / 2 : ℝ) = 5 / 4 * -(2 / 5); norm_num)
  refine ⟨T, e1, ?_⟩
  have hT := hg.turn 2 T.rotation own.strain e2
  have hT' := dot_turned hT d1
  obtain ⟨v', -, h2, -⟩ := velocity_model hg (regular_turned e2 hT' (own_news 0).1)
  have e := velocity_turned hg e2 hT' d2 (own_news 0).1 (own_news 0).2 h2
  have hp := unit_parallel (e3 _ hT 0 (by show (0 : ℝ) ∈ [0, 1]; simp) v' _ h2 (own_target 0).2)
  have hu : ∀ c : ℝ, unit ![0, 0, c] = ![0, 0, c / |c|] := by
    intro c
    have a0 : (![0, 0, c] : Vec) 0 = 0 := rfl
    have a1 : (![0, 0, c] : Vec) 1 = 0 := rfl
    have a2 : (![0, 0, c] : Vec) 2 = c := rfl
    funext i
    unfold unit
    rw [a0, a1, a2, show (0 : ℝ) ^ 2 + 0 ^ 2 + c ^ 2 = c ^ 2 by ring, Real.sqrt_sq_eq_abs]
    fin_cases i
    · exact zero_div _
    · exact zero_div _
    · rfl
  have h5 := congrArg unit e
  rw [unit_rotate e2, ← hp, hu, hu, show (2 / 5 : ℝ) / |2 / 5| = 1 by rw [abs_of_pos] <;> norm_num, show (-1 / 2 : ℝ) / |-1 / 2| = -1 by rw [abs_of_neg] <;> norm_num] at h5
  have e6 : (![0, 0, 1] : Vec) = (-1 : ℝ) • ![0, 0, -1] := by
    funext i
    fin_cases i
    · show (0 : ℝ) = -1 * 0; norm_num
    · show (0 : ℝ) = -1 * 0; norm_num
    · show (1 : ℝ) = -1 * -1; norm_num
  have e7 : (![0, 0, -1] : Vec) = (-1 : ℝ) • ![0, 0, 1] := by
    rw [e6, smul_smul]
    norm_num
  rw [e6, Verif.Lemmas.Bms.rotateVec_smul, ← h5, ← e7]

/-! ## The assumptions can be met -/

open Classical in
/-- Functions as they are assumed to be. -/
noncomputable def sampleExt : Ext where
  solve := exSolve
  align v u _ := if h : ∃ R, UnitRotor R ∧ u = v.map (rotateVec R) then h.choose else 1
  turn _ Q d i := if h : ∃ p : Int × Int, -p.1 ≤ p.2 ∧ p.2 ≤ p.1 ∧ lmIndex p.1 p.2 2 = i then rot h.choose.1 Q (fun n => d (lmIndex h.choose.1 n 2)) h.choose.2 else 0
  integrate ys _ := ys.sum

theorem sample_good : Spec.TargetRotation.Good sampleExt where
  solves := ex_facts.1
  solvable A l h := by
    have hex : ∃ x : Fin 3 → ℝ, ∀ i, ∑ j, A i j * x j = l i := by
      have hinj : Function.Injective (Matrix.mulVecLin (Matrix.of A)) := by
        rw [← LinearMap.ker_eq_bot, LinearMap.ker_eq_bot']
        intro v hv
        refine h v fun i => ?_
        exact congrFun hv i
      obtain ⟨x, hx⟩ := LinearMap.injective_iff_surjective.1 hinj l
      exact ⟨x, fun i => congrFun hx i⟩
    exact ⟨hex.choose, dif_pos hex⟩
  align v u ts R0 h0 h := by
    have hex : ∃ R, UnitRotor R ∧ u = v.map (rotateVec R) := ⟨R0, h0, h⟩
    have e : sampleExt.align v u ts = hex.choose := dif_pos hex
    rw [e]
    exact hex.choose_spec
  turn L Q f _ s ell m h1 h2 h3 h4 := by
    have hex : ∃ p : Int × Int, -p.1 ≤ p.2 ∧ p.2 ≤ p.1 ∧ lmIndex p.1 p.2 2 = lmIndex ell m 2 := ⟨(ell, m), h3, h4, rfl⟩
    have e : sampleExt.turn L Q (f s) (lmIndex ell m 2) = rot hex.choose.1 Q (fun n => f s (lmIndex hex.choose.1 n 2)) hex.choose.2 := dif_pos hex
    refine e.trans ?_
    obtain ⟨k1, k2, k3⟩ := hex.choose_spec
    obtain ⟨i1, i2⟩ := lmIndex_inj ⟨k1, k2⟩ ⟨h3, h4⟩ k3
    rw [i1, i2]
    rfl
  zero ys ts h := by
    show ys.sum = 0
    exact List.sum_eq_zero h

/-- A field that turns uniformly about the `z` axis, seen from turned axes. -/
example (Q0 : Quaternion ℝ) (h0 : UnitRotor Q0) : ∃ T, rotationToTarget sampleExt ⟨[0, 1], two 1 2 0 0, 2⟩ ⟨[0, 1], fun s => sampleExt.turn 2 Q0 (two 1 2 0 0 s), 2⟩ 10 (.fin (1 / 10 ^ 12)) = .ok (T, [.inf, .fin 0]) := by
  have hT := sample_good.turn 2 Q0 (two 1 2 0 0) h0
  obtain ⟨T, h, -⟩ := rotated_copy_partial (g := ⟨[0, 1], two 1 2 0 0, 2⟩) (w := ⟨[0, 1], fun s => sampleExt.turn 2 Q0 (two 1 2 0 0 s), 2⟩) sample_good (by
      intro i
      show ContDiff ℝ 3 fun s => sampleExt.turn 2 Q0 (two 1 2 0 0 s) i
      unfold sampleExt
      simp only
      split
      · unfold rot
        exact ContDiff.sum fun m _ => (smooth_two _ _ _ _ _).mul contDiff_const
      · exact contDiff_const) (smooth_two _ _ _ _) rfl Q0 h0 hT ![0, 0, 1] (fun h => one_ne_zero (congrFun h 2)) (by
      intro s ell m h1 h2 h3 h4
      have h1' : (2 : Int) ≤ ell := h1
      have h2' : ell ≤ (2 : Int) := h2
      obtain rfl : ell = 2 := le_antisymm h2' h1'
      obtain ⟨m2, mm2, m1, m0, mm1, m3, mm3⟩ := modes_two 1 2 0 0 s
      have hr : rate (two 1 2 0 0) s = modes (two (-(2 : ℝ) * Complex.I * 1) 2 (-(0 : ℝ) * Complex.I * 0) 0) s := by
        rw [← dot_two]
        rfl
      obtain ⟨r2, rm2, r1, r0, rm1, -, -⟩ := modes_two (-(2 : ℝ) * Complex.I * 1) 2 (-(0 : ℝ) * Complex.I * 0) 0 s
      obtain ⟨e2, e1, e0, em1, em2⟩ := vL_two _ ![0, 0, 1] _ _ m2 mm2 m1 m0 mm1 m3 mm3
      show rate (two 1 2 0 0) s 2 m = -Complex.I * vL ![0, 0, 1] (modes (two 1 2 0 0) s) 2 m
      rw [hr]
      obtain rfl | rfl | rfl | rfl | rfl : m = -2 ∨ m = -1 ∨ m = 0 ∨ m = 1 ∨ m = 2 := by omega
      · rw [rm2, em2]; simp
      · rw [rm1, em1]; simp
      · rw [r0, e0]; simp
      · rw [r1, e1]; simp
      · rw [r2, e2]
        simp
        ring) (by
      intro s _
      show Spec.TargetRotation.Regular 2 (dot (two 1 2 0 0)) s ∧ Spec.TargetRotation.Regular 2 (dot (dot (two 1 2 0 0))) s
      rw [dot_two, dot_two]
      exact ⟨regular_two _ _ _ _ (by simp) s, regular_two _ _ _ _ (by simp) s⟩) 10 (by norm_num) (1 / 10 ^ 12) (by norm_num) (by show (0 : ℝ) ≠ 1; norm_num)
  exact ⟨T, h⟩

end Verif.Props.TargetRotation
