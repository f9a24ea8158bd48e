import Verif.Model.TargetError
import Verif.Props.FrameErrors
import Verif.Props.TargetRotation

/-!
# C103 with a target strain: what the error of the rotation measures
-/

namespace Verif.Props.TargetError
open Verif Verif.SuperrestLoop Verif.TargetError Verif.TargetRotation Verif.Spec.AbdFrame Verif.Spec.FrameErrors Verif.Props.TargetRotation

variable {ext : FrameErrors.Ext} {ext' : TargetRotation.Ext} {g w : Wave}

theorem distances_nonneg (v u : List Vec) : ∀ y ∈ distances v u, 0 ≤ y := by
  unfold distances
  intro y hy
  obtain ⟨i, hi, rfl⟩ := List.mem_iff_getElem.1 hy
  rw [List.getElem_zipWith]
  exact Real.sqrt_nonneg _

theorem distance_zero (a b : Vec) : √((a 0 - b 0) ^ 2 + (a 1 - b 1) ^ 2 + (a 2 - b 2) ^ 2) = 0 ↔ a = b := by
  rw [Real.sqrt_eq_zero (by positivity)]
  constructor
  · intro h
    have h0 : a 0 = b 0 := by nlinarith [sq_nonneg (a 0 - b 0), sq_nonneg (a 1 - b 1), sq_nonneg (a 2 - b 2)]
    have h1 : a 1 = b 1 := by nlinarith [sq_nonneg (a 0 - b 0), sq_nonneg (a 1 - b 1), sq_nonneg (a 2 - b 2)]
    have h2 : a 2 = b 2 := by nlinarith [sq_nonneg (a 0 - b 0), sq_nonneg (a 1 - b 1), sq_nonneg (a 2 - b 2)]
    funext i
    fin_cases i <;> assumption
  · rintro rfl
    simp

theorem distances_zero (ts : List ℝ) (V U : ℝ → Vec) : (∀ y ∈ distances (ts.map V) (ts.map U), y = 0) ↔ ∀ s ∈ ts, V s = U s := by
  unfold distances
  induction ts with
  | nil => simp
  | cons s ts ih =>
    simp only [List.map_cons, List.zipWith_cons_cons, List.mem_cons, forall_eq_or_imp]
    rw [ih, distance_zero]

theorem ends_ne {t : List ℝ} (h2 : 2 ≤ t.length) (hi : t.Pairwise (· < ·)) : t.headD 0 < t.getLastD 0 := by
  match t, h2 with
  | x :: y :: l, _ =>
    rw [List.pairwise_cons] at hi
    rw [List.headD_cons, List.getLastD_cons, List.getLastD_cons]
    refine hi.1 _ ?_
    rw [List.getLastD_eq_getLast?]
    rcases h : l.getLast? with _ | z
    · simp
    · have := List.mem_of_getLast? h
      simp [this]

/-- The error of the rotation with a target strain is a number that is not negative; it is 0 exactly if at all times the angular velocity of the news has the direction of that of the second derivative of the target. -/
theorem rotation_error_spec (hg : Spec.TargetRotation.Good ext') (hI : PositiveIntegral ext'.integrate) (h2 : 2 ≤ w.t.length) (hi : w.t.Pairwise (· < ·))
    (hr : ∀ s ∈ w.t, Spec.TargetRotation.Regular w.ellMax (dot w.strain) s ∧ Spec.TargetRotation.Regular g.ellMax (dot (dot g.strain)) s)
    (hv : ∀ s ∈ w.t, ∀ v, (Spec.TargetRotation.Velocity w.ellMax (dot w.strain) s v ∨ Spec.TargetRotation.Velocity g.ellMax (dot (dot g.strain)) s v) → v ≠ 0) :
    ∃ x, rotationError ext' g w = .ok (.fin x) ∧ 0 ≤ x ∧
      (x = 0 ↔ ∀ s ∈ w.t, ∀ v u, Spec.TargetRotation.Velocity w.ellMax (dot w.strain) s v → Spec.TargetRotation.Velocity g.ellMax (dot (dot g.strain)) s u → Spec.TargetRotation.Parallel v u) := by
  obtain ⟨V, v1, v2⟩ := directions_model hg w.t fun s hs => (hr s hs).1
  obtain ⟨U, u1, u2⟩ := directions_model hg w.t fun s hs => (hr s hs).2
  have hne : w.t ≠ [] := by
    rintro h
    rw [h] at h2
    simp at h2
  have hends := ends_ne h2 hi
  have hlen : (distances (w.t.map fun s => unit (V s)) (w.t.map fun s => unit (U s))).length = w.t.length := by
    unfold distances
    rw [List.length_zipWith, List.length_map, List.length_map, min_self]
  obtain ⟨I1, I2⟩ := hI _ w.t hlen hi h2 (distances_nonneg _ _)
  refine ⟨ext'.integrate (distances (w.t.map fun s => unit (V s)) (w.t.map fun s => unit (U s))) w.t / (w.t.getLastD 0 - w.t.headD 0), ?_, div_nonneg I1 (by linarith), ?_⟩
  · unfold rotationError
    rw [show targetNews g = dot (dot g.strain) from rfl, u1, ok_bind, show news w = dot w.strain from rfl, v1, ok_bind, if_neg hne]
    unfold error
    rw [if_neg hends.ne']
    rfl
  · rw [div_eq_zero_iff, or_iff_left (by linarith), I2, distances_zero]
    constructor
    · intro h s hs v u hvv huu
      rw [(v2 s hs).2 v hvv, (u2 s hs).2 u huu]
      exact parallel_unit (hv s hs _ (.inl (v2 s hs).1)) (hv s hs _ (.inr (u2 s hs).1)) (h s hs)
    · intro h s hs
      exact (unit_parallel (h s hs _ _ (v2 s hs).1 (u2 s hs).1)).symm

/-- The second of three values is replaced by another computation. -/
theorem swap_middle {α β : Type} (A : Py α) (B : α → Py Err) (S : Py β) (C : β → Py Err) (D : Py Err) {X Q Z Y : Err}
    (h : (do let G ← A; let e1 ← B G; let s ← S; let e2 ← C s; let e3 ← D; pure (e1, e2, e3) : Py (Err × Err × Err)) = .ok (X, Q, Z)) :
    (do let G ← A; let e1 ← B G; let e2 ← (.ok Y : Py Err); let e3 ← D; pure (e1, e2, e3) : Py (Err × Err × Err)) = .ok (X, Y, Z) := by
  rcases A with p | G
  · cases h
  rw [ok_bind] at h ⊢
  generalize B G = x at h ⊢
  rcases x with p | E
  · cases h
  rw [ok_bind] at h ⊢
  rcases S with p | s
  · cases h
  rw [ok_bind] at h
  generalize C s = x at h
  rcases x with p | E'
  · cases h
  rw [ok_bind] at h
  rcases D with p | E''
  · cases h
  rw [ok_bind] at h ⊢
  cases h
  rfl

/-- All three errors with a target strain: for the first and the third see `errors_spec`. -/
theorem target_errors {a : FrameErrors.Data} (hp : Spec.FrameErrors.Proper ext a) (hI : PositiveIntegral ext.integrate) (target : Option FrameErrors.Target) (hT : ∀ T, target = some T → T.t ≠ [])
    (hg : Spec.TargetRotation.Good ext') (hI' : PositiveIntegral ext'.integrate) (h2 : 2 ≤ w.t.length) (hi : w.t.Pairwise (· < ·))
    (hr : ∀ s ∈ w.t, Spec.TargetRotation.Regular w.ellMax (dot w.strain) s ∧ Spec.TargetRotation.Regular g.ellMax (dot (dot g.strain)) s)
    (hv : ∀ s ∈ w.t, ∀ v, (Spec.TargetRotation.Velocity w.ellMax (dot w.strain) s v ∨ Spec.TargetRotation.Velocity g.ellMax (dot (dot g.strain)) s v) → v ≠ 0) :
    ∃ x y z, errors ext ext' target g w a = .ok (.fin x, .fin y, .fin z) ∧ 0 ≤ x ∧ 0 ≤ y ∧ 0 ≤ z ∧ (x = 0 ↔ Centered ext a) ∧ (z = 0 ↔ Nice ext target a) ∧
      (y = 0 ↔ ∀ s ∈ w.t, ∀ v u, Spec.TargetRotation.Velocity w.ellMax (dot w.strain) s v → Spec.TargetRotation.Velocity g.ellMax (dot (dot g.strain)) s u → Spec.TargetRotation.Parallel v u) := by
  obtain ⟨x, q, z, h1, hx, hz, h3, h4, -⟩ := Verif.Props.FrameErrors.errors_spec hp hI target hT
  obtain ⟨y, k1, k2, k3⟩ := rotation_error_spec hg hI' h2 hi hr hv
  refine ⟨x, y, z, ?_, hx, k2, hz, h3, h4, k3⟩
  unfold FrameErrors.errors at h1
  unfold errors
  rw [k1]
  exact swap_middle _ _ _ _ _ h1

theorem own_nonzero (hg : Spec.TargetRotation.Good ext') (s : ℝ) (v : Vec) (h : Spec.TargetRotation.Velocity 2 (dot own.strain) s v ∨ Spec.TargetRotation.Velocity 2 (dot (dot own.strain)) s v) : v ≠ 0 := by
  rcases h with h | h
  · rw [velocity_only hg (own_news s).1 h (own_news s).2]
    intro h0
    have : (2 / 5 : ℝ) = 0 := congrFun h0 2
    norm_num at this
  · rw [velocity_only hg (own_target s).1 h (own_target s).2]
    intro h0
    have : (-1 / 2 : ℝ) = 0 := congrFun h0 2
    norm_num at this

/-- C103 (refutation, with a target strain): data that agree with the target, because the target is their own strain, have an error that is not 0. -/
theorem own_strain_error (hg : Spec.TargetRotation.Good ext') (hI : PositiveIntegral ext'.integrate) : ∃ x, rotationError ext' own own = .ok (.fin x) ∧ 0 < x := by
  obtain ⟨x, h1, h2, h3⟩ := rotation_error_spec (g := own) (w := own) hg hI (by simp [own]) (by simp [own]) (fun s _ => ⟨(own_news s).1, (own_target s).1⟩) (fun s _ v h => own_nonzero hg s v h)
  refine ⟨x, h1, lt_of_le_of_ne h2 fun h => ?_⟩
  obtain ⟨c, hc, h4⟩ := h3.1 h.symm 0 (by simp [own]) _ _ (own_news 0).2 (own_target 0).2
  have : (-1 / 2 : ℝ) = c * (2 / 5) := h4 2
  linarith

/-- The instance of the parameters of C101 with integrals by the trapezoidal rule. -/
noncomputable def trapExt : TargetRotation.Ext := { sampleExt with integrate := Verif.Props.AbdFrame.trap }

theorem trap_positive : PositiveIntegral Verif.Props.AbdFrame.trap := fun y t hl hp h2 hn => ⟨Verif.Props.AbdFrame.trap_nonneg y t hl hp hn, Verif.Props.AbdFrame.trap_zero y t hl hp h2 hn⟩

theorem trap_of_zero : ∀ (ys ts : List ℝ), (∀ y ∈ ys, y = 0) → Verif.Props.AbdFrame.trap ys ts = 0 := by
  intro ys ts
  fun_induction Verif.Props.AbdFrame.trap ys ts with
  | case1 => 
    intro h
    simp_all
  | case2 => intros; rfl

theorem trap_good : Spec.TargetRotation.Good trapExt :=
  ⟨sample_good.solves, sample_good.solvable, sample_good.align, sample_good.turn, trap_of_zero⟩

/-- Data, a target and instances of all parameters to which `target_errors` applies: the error of the rotation is that of `own_strain_error`. -/
example : ∃ x y z, errors Verif.Props.FrameErrors.holeExt trapExt none own own (Verif.Props.FrameErrors.holes 1) = .ok (.fin x, .fin y, .fin z) ∧ 0 ≤ x ∧ 0 ≤ y ∧ 0 ≤ z := by
  have hg := trap_good
  obtain ⟨x, y, z, h, hx, hy, hz, -⟩ := target_errors (ext := Verif.Props.FrameErrors.holeExt) (ext' := trapExt) (g := own) (w := own) (Verif.Props.FrameErrors.holes_proper 1) trap_positive none (by simp) hg trap_positive
    (by simp [own]) (by simp [own]) (fun s _ => ⟨(own_news s).1, (own_target s).1⟩) (fun s _ v h => own_nonzero hg s v h)
  exact ⟨x, y, z, h, hx, hy, hz⟩

end Verif.Props.TargetError
