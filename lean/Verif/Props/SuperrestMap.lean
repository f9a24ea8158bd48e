import Verif.Spec.SuperrestMap
import Verif.Props.FrameErrors
import Verif.Props.Moreschi
import Verif.Props.Cwwy
import Verif.Props.SuperrestLoop

/-!
# C104: data in the superrest frame are left as they are, and an error of 0 means that the data are in it
-/

namespace Verif.Props.SuperrestMap
open Verif Verif.Charges Verif.Modes Verif.SuperrestLoop Verif.FrameErrors Verif.SuperrestMap Verif.Spec.SuperrestMap Verif.Spec.FrameErrors Verif.Spec.AbdFrame Verif.Spec.Moreschi Verif.Spec.SuperrestLoop
  Verif.Props.FrameErrors Verif.GridMultiply.Spec

variable {c : Calls} {a : Data}

/-! ## The loops -/

/-- A loop that finds the identity. -/
theorem run_one {S B : Type} {step : Nat → S → Py (S × Err)} {out : S → B} {s0 s1 : S} {b0 : B} {N : Int} (hN : 0 < N) {tol : Err} (ht : (Err.fin 0).lt tol) (h : step 0 s0 = .ok (s1, .fin 0)) :
    run step out N tol s0 b0 = .ok (out s1, [.inf, .fin 0]) := by
  obtain ⟨n, hn⟩ : ∃ n, N.toNat = n + 1 := ⟨N.toNat - 1, by omega⟩
  have e : ∀ k, iterate step out (n + 1) tol k { itr := 1, err := .fin 0, errs := [.inf, .fin 0], cur := s1, best := out s1 } = .ok { itr := 1, err := .fin 0, errs := [.inf, .fin 0], cur := s1, best := out s1 } := by
    intro k
    cases k with
    | zero => rfl
    | succ k => exact if_neg fun h => h.2 ht
  have e0 : iterate step out (n + 1) tol (n + 1) { itr := 0, err := .inf, errs := [.inf], cur := s0, best := b0 } = .ok { itr := 1, err := .fin 0, errs := [.inf, .fin 0], cur := s1, best := out s1 } := by
    refine (if_pos ⟨Nat.succ_pos _, fun h => by cases tol <;> exact h⟩).trans ?_
    show (step 0 s0 >>= _) = _
    rw [h, ok_bind]
    show iterate step out (n + 1) tol n { itr := 1, err := .fin 0, errs := [.inf, .fin 0], cur := s1, best := if (Err.fin 0).lt (pyMin [.inf]) then out s1 else b0 } = _
    rw [if_pos (show (Err.fin 0).lt (pyMin [.inf]) from trivial)]
    exact e n
  unfold run
  rw [hn, e0]
  rfl

/-- One pass of a solver. -/
theorem pass_one {G : Type} {env : Env Data G} {clean : Tr → Tr} {g : G} (h1 : env.charge a = .ok g) (h2 : env.fromCharge g = .ok Tr.one) (h3 : env.compose Tr.one Tr.one = .ok Tr.one) (h4 : clean Tr.one = Tr.one)
    (h5 : env.transform a Tr.one = .ok a) (h6 : env.error a g = .fin 0) : pass env clean a 0 (Tr.one, none) = .ok ((Tr.one, some g), .fin 0) := by
  unfold pass present
  rw [if_pos rfl, h1, ok_bind, h2, ok_bind, h3, ok_bind, h4, h5, ok_bind, h1, ok_bind, h6]
  rfl

/-! ## The center of mass -/

theorem centre_zero (hp : Spec.FrameErrors.Proper c.toExt a) (h : Centered c.toExt a) : a.at'.mapM (centre c) = .ok (a.at'.map fun _ => some 0) := by
  have : ∀ l : List Abd, (∀ d ∈ l, d ∈ a.at') → l.mapM (centre c) = .ok (l.map fun _ => some 0) := by
    intro l hl
    induction l with
    | nil => rfl
    | cons d l ih =>
      have hd := hl d (by simp)
      obtain ⟨E, p1, p2, p3, hP, hE, -⟩ := hp.massive d hd
      have e : centre c d = .ok (some 0) := by
        unfold centre
        rw [h d hd, hP, ok_bind, ok_bind]
        show pure (if E = 0 then none else some fun i => vec [0, 0, 0] i / E) = _
        rw [if_neg hE.ne', vec_eq]
        have : (fun i => (![0, 0, 0] : Fin 3 → ℝ) i / E) = 0 := by
          funext i
          fin_cases i <;> simp
        rw [this]
        rfl
      rw [List.mapM_cons, e, ok_bind, ih fun d' hd' => hl d' (by simp [hd']), ok_bind]
      rfl
  exact this _ fun _ h => h

theorem average_zero (hp : Spec.FrameErrors.Proper c.toExt a) (hI : PositiveIntegral c.integrate) : average c.toExt (a.at'.map fun _ => some 0) (times a) = .ok (.fin 0) := by
  obtain ⟨x, y, hx, hy, hxy, hne⟩ := length_times hp
  unfold average times
  rw [if_neg hne, if_neg]
  · have h0 := (hI (a.at'.map fun _ => (0 : ℝ)) (a.at'.map (·.t)) (by simp) hp.inc (by simpa using hp.two) (by simp)).2.2 (by simp)
    rw [List.map_map]
    show Except.ok (Err.fin (c.integrate (a.at'.map fun _ => (0 : ℝ)) (a.at'.map (·.t)) / _)) = _
    rw [h0, zero_div]
  · rintro (h | h)
    · simp at h
    · rw [hx, hy] at h
      exact hxy.ne' h

theorem com_from_zero (hp : Spec.FrameErrors.Proper c.toExt a) : comFrom (a.at'.map fun _ => some 0, times a) = .ok Tr.one := by
  obtain ⟨x, y, hx, hy, hxy, hne⟩ := length_times hp
  have mem : x ∈ times a ∧ y ∈ times a := by
    unfold times
    obtain ⟨u, l, hl⟩ := List.exists_cons_of_ne_nil hne
    rw [hl] at hx hy ⊢
    refine ⟨by rw [← hx]; simp, ?_⟩
    rw [← hy, List.getLastD_cons, List.getLastD_eq_getLast?]
    rcases h : l.getLast? with _ | z
    · simp
    · have := List.mem_of_getLast? h
      simp [this]
  have fit : ∀ i : Fin 3, Superrest.polyfit (times a) ((a.at'.map fun _ => some (0 : Fin 3 → ℝ)).map fun v => v.getD 0 i) = (0, 0) := by
    intro i
    have := Verif.Props.Superrest.polyfit_exact (times a) x y mem.1 mem.2 hxy.ne 0 0
    rw [← this]
    congr 1
    unfold times
    rw [List.map_map, List.map_map]
    apply List.map_congr_left
    intro d _
    simp
  unfold comFrom
  rw [if_neg (show ¬ times a = [] from hne), if_neg (by simp)]
  simp only [fit]
  congr 1
  have e : TransformKwargs.vectorAs 0 0 0 = (0, 0, 0) := by
    unfold TransformKwargs.vectorAs
    have h0 : (⟨0, 0⟩ : ℂ) = 0 := rfl
    rw [neg_zero, h0]
    simp
  rw [e]
  unfold Tr.one
  congr 1
  funext i
  simp

theorem clean_com : cleanCom Tr.one = Tr.one := by
  unfold cleanCom Tr.one
  congr 1
  funext i
  simp

theorem com_one (hp : Spec.FrameErrors.Proper c.toExt a) (hI : PositiveIntegral c.integrate) (h : Centered c.toExt a) (h1 : c.compose Tr.one Tr.one = .ok Tr.one) (h2 : c.transform a Tr.one = .ok a) {N : Int} (hN : 0 < N) {tol : Err}
    (ht : (Err.fin 0).lt tol) : SuperrestLoop.com (comEnv c) a N tol = .ok (Tr.one, [.inf, .fin 0]) := by
  have hc : (comEnv c).charge a = .ok (a.at'.map fun _ => some 0, times a) := by
    show (a.at'.mapM (centre c) >>= _) = _
    rw [centre_zero hp h]
    rfl
  refine run_one hN ht (pass_one hc (com_from_zero hp) h1 clean_com h2 ?_)
  show orNan (average c.toExt ((a.at'.map fun _ => some (0 : Fin 3 → ℝ)).map fun v => v.map norm3) (times a)) = _
  have e : (a.at'.map fun _ => some (0 : Fin 3 → ℝ)).map (fun v => v.map norm3) = a.at'.map fun _ => some 0 := by
    rw [List.map_map]
    apply List.map_congr_left
    intro d _
    exact congrArg some ((norm3_zero 0).2 rfl)
  rw [e, average_zero hp hI]
  rfl

/-! ## The rotation -/

theorem unit_upright (s : Fin 3 → ℝ) (h0 : s 0 = 0) (h1 : s 1 = 0) (h2 : 0 < s 2) : unit (some s) = some ![0, 0, 1] := by
  have e : norm3 s = s 2 := by
    unfold norm3
    rw [h0, h1]
    simp only [ne_eq, OfNat.ofNat_ne_zero, not_false_eq_true, zero_pow, zero_add]
    exact Real.sqrt_sq h2.le
  unfold unit
  simp only [e]
  rw [if_neg h2.ne']
  congr 1
  funext i
  fin_cases i
  · simp [h0]
  · simp [h1]
  · simp [h2.ne']

theorem spins_upright (hp : Spec.FrameErrors.Proper c.toExt a) (h : Upright c.toExt a) : ∃ s, a.at'.mapM (spin c.toExt) = .ok s ∧ s.map unit = a.at'.map fun _ => some ![0, 0, 1] := by
  have : ∀ l : List Abd, (∀ d ∈ l, d ∈ a.at') → ∃ s, l.mapM (spin c.toExt) = .ok s ∧ s.map unit = l.map fun _ => some ![0, 0, 1] := by
    intro l hl
    induction l with
    | nil => exact ⟨[], rfl, rfl⟩
    | cons d l ih =>
      obtain ⟨s, i1, i2⟩ := ih fun d' hd' => hl d' (by simp [hd'])
      have hd := hl d (by simp)
      obtain ⟨E, p1, p2, p3, hP, hE, hm⟩ := hp.massive d hd
      obtain ⟨v, k1, k2⟩ := spin_eq d E p1 p2 p3 hP hE hm
      obtain ⟨v', k3, k4, k5, k6⟩ := h d hd
      obtain rfl := (k2 v').1 k3
      refine ⟨some v' :: s, ?_, ?_⟩
      · rw [List.mapM_cons, k1, ok_bind, i1, ok_bind]
        rfl
      · rw [List.map_cons, List.map_cons, i2, unit_upright v' k4 k5 k6]
  exact this _ fun _ h => h

theorem spin_rotor_one : Superrest.spinRotor ![0, 0, 1] = some 1 := by
  have e1 : Superrest.normalized (AbdTransform.vecQuat ![0, 0, 1]) = some ((1 : ℝ) • AbdTransform.vecQuat ![0, 0, 1]) := by
    have hn : Quaternion.normSq (AbdTransform.vecQuat ![0, 0, 1]) = 1 := by
      rw [Verif.Props.Superrest.normSq_vecQuat]
      simp
    unfold Superrest.normalized
    rw [hn, if_neg one_ne_zero, Real.sqrt_one, inv_one]
  obtain ⟨r0, r1, r2, r3⟩ := Verif.Props.Superrest.rotor_components 1 ![0, 0, 1]
  simp only [Matrix.cons_val, mul_zero, mul_one, neg_zero] at r0 r1 r2 r3
  unfold Superrest.spinRotor
  rw [e1]
  show Superrest.normalized (1 - (1 : ℝ) • AbdTransform.vecQuat ![0, 0, 1] * Superrest.qz) = _
  generalize 1 - (1 : ℝ) • AbdTransform.vecQuat ![0, 0, 1] * Superrest.qz = p at r0 r1 r2 r3 ⊢
  have hn : Quaternion.normSq p = 2 ^ 2 := by
    rw [Verif.Lemmas.Bms.normSq_components, r0, r1, r2, r3]
    norm_num
  unfold Superrest.normalized
  rw [hn, if_neg (by norm_num), Real.sqrt_sq (by norm_num)]
  congr 1
  apply Quaternion.ext
  · show 2⁻¹ * p.re = 1
    rw [r0]
    norm_num
  · show 2⁻¹ * p.imI = 0
    rw [r1, mul_zero]
  · show 2⁻¹ * p.imJ = 0
    rw [r2, mul_zero]
  · show 2⁻¹ * p.imK = 0
    rw [r3, mul_zero]

theorem rotation_one (hp : Spec.FrameErrors.Proper c.toExt a) (hI : PositiveIntegral c.integrate) (h : Upright c.toExt a) (h1 : c.compose Tr.one Tr.one = .ok Tr.one) (h2 : c.transform a Tr.one = .ok a) {N : Int} (hN : 0 < N) {tol : Err}
    (ht : (Err.fin 0).lt tol) : SuperrestLoop.rotation (rotationEnv c) a N tol = .ok (Tr.one, [.inf, .fin 0]) := by
  obtain ⟨s, s1, s2⟩ := spins_upright hp h
  have hc : (rotationEnv c).charge a = .ok (a.at'.map fun _ => some ![0, 0, 1], times a) := by
    show (a.at'.mapM (spin c.toExt) >>= _) = _
    rw [s1, ok_bind, s2]
    rfl
  obtain ⟨x, y, hx, hy, hxy, hne⟩ := length_times hp
  have hf : (rotationEnv c).fromCharge (a.at'.map fun _ => some ![0, 0, 1], times a) = .ok Tr.one := by
    obtain ⟨k, k1, u, k2, -⟩ := Verif.Props.AbdFrame.nearest_spec (times a) 0 hne
    show rotationFrom _ = _
    unfold rotationFrom
    rw [k1, ok_bind]
    have hk : k < a.at'.length := by
      have := (List.getElem?_eq_some_iff.1 k2).1
      unfold times at this
      rwa [List.length_map] at this
    have : (a.at'.map fun _ => some (![0, 0, 1] : Fin 3 → ℝ))[k]? = some (some ![0, 0, 1]) := by
      rw [List.getElem?_map, List.getElem?_eq_getElem hk]
      rfl
    simp only [this, Option.join_some, Option.bind_some, spin_rotor_one]
    rfl
  refine run_one hN ht (pass_one hc hf h1 rfl h2 ?_)
  show orNan (average c.toExt ((a.at'.map fun _ => some (![0, 0, 1] : Fin 3 → ℝ)).map fun v => v.map fun s => norm3 fun i => s i - (if i = 2 then 1 else 0)) (times a)) = _
  have e : (a.at'.map fun _ => some (![0, 0, 1] : Fin 3 → ℝ)).map (fun v => v.map fun s => norm3 fun i => s i - (if i = 2 then 1 else 0)) = a.at'.map fun _ => some 0 := by
    rw [List.map_map]
    apply List.map_congr_left
    intro d _
    refine congrArg some ((norm3_zero _).2 ?_)
    funext i
    fin_cases i <;> simp
  rw [e, average_zero hp hI]
  rfl

/-! ## The supertranslation -/

theorem cut_congr {L : Int} (hL : 0 ≤ L) {f g : Modes} (h : ∀ ell m, 0 ≤ ell → ell ≤ L → |m| ≤ ell → f ell m = g ell m) : cut L (Cwwy.rowOf f) = cut L (Cwwy.rowOf g) := by
  funext i
  unfold cut
  by_cases hi : 0 ≤ i ∧ i < (L + 1) ^ 2
  · rw [if_pos hi, if_pos hi]
    unfold Cwwy.rowOf
    have h1 : Int.sqrt i * Int.sqrt i ≤ i := by
      have := Nat.sqrt_le i.toNat
      unfold Int.sqrt
      omega
    have h2 : i < (Int.sqrt i + 1) * (Int.sqrt i + 1) := by
      have := Nat.lt_succ_sqrt i.toNat
      unfold Int.sqrt
      push_cast [Nat.succ_eq_add_one] at this ⊢
      have h : (i.toNat : Int) = i := Int.toNat_of_nonneg hi.1
      rw [← h]
      exact_mod_cast this
    have h0 : 0 ≤ Int.sqrt i := by
      unfold Int.sqrt
      omega
    refine h _ _ h0 ?_ (abs_le.2 ⟨by nlinarith, by nlinarith⟩)
    by_contra hc
    push Not at hc
    nlinarith [hi.2]
  · rw [if_neg hi, if_neg hi]

theorem modes_cut {L : Int} (f : Modes) {ell m : Int} (h0 : 0 ≤ ell) (h1 : ell ≤ L) (hm : |m| ≤ ell) : modesOf (cut L (Cwwy.rowOf f)) ell m = f ell m := by
  have hm' := abs_le.1 hm
  have hM : Verif.Spec.Superrest.IsMode ell m := hm'
  unfold modesOf cut
  rw [if_pos (by unfold lmIndex; constructor <;> nlinarith)]
  unfold Cwwy.rowOf
  rw [Verif.Lemmas.Superrest.sqrt_index ell m hM, show lmIndex ell m 0 - ell * (ell + 1) = m by unfold lmIndex; ring]

theorem psi_stationary (hp : Spec.FrameErrors.Proper c.toExt a) {f : Modes} (h : Stationary c.toExt a f) : psiM c a = .ok { s := 0, ellMax := a.ellMax, t := times a, data := List.replicate (times a).length (cut a.ellMax (Cwwy.rowOf f)) } := by
  have : ∀ l : List Abd, (∀ d ∈ l, d ∈ a.at') → ∃ gs, l.mapM (fun d => supermomentum (c.prod d) d "moreschi" false) = .ok gs ∧ gs.map (fun g => cut a.ellMax (Cwwy.rowOf g)) = List.replicate l.length (cut a.ellMax (Cwwy.rowOf f)) := by
    intro l hl
    induction l with
    | nil => exact ⟨[], rfl, rfl⟩
    | cons d l ih =>
      obtain ⟨gs, i1, i2⟩ := ih fun d' hd' => hl d' (by simp [hd'])
      obtain ⟨g, k1, k2⟩ := h.same d (hl d (by simp))
      refine ⟨g :: gs, ?_, ?_⟩
      · rw [List.mapM_cons, show supermomentum (c.prod d) d "moreschi" false = .ok g from k1, ok_bind, i1, ok_bind]
        rfl
      · rw [List.map_cons, i2, cut_congr (by have := hp.ell; omega) k2]
        rfl
  obtain ⟨gs, h1, h2⟩ := this a.at' fun _ h => h
  unfold psiM
  rw [h1, ok_bind, h2]
  unfold times
  rw [List.length_map]
  rfl

theorem supertranslation_one (hE : Verif.GridMultiply.Spec.Exact c.map2salm) (hs : ConstSpline c.spline) (hp : Spec.FrameErrors.Proper c.toExt a) {f : Modes} (h : Stationary c.toExt a f)
    (h2 : ∀ ell m, 2 ≤ ell → ell ≤ a.ellMax → |m| ≤ ell → f ell m = 0) {N : Int} (hN : 0 < N) {x : ℝ} (hx : 0 < x) : SuperrestMap.supertranslation c N (.fin x) a = .ok Tr.one := by
  have hC : Constant { s := 0, ellMax := a.ellMax, t := times a, data := List.replicate (times a).length (cut a.ellMax (Cwwy.rowOf f)) } a.ellMax (cut a.ellMax (Cwwy.rowOf f)) :=
    ⟨rfl, rfl, by show 2 ≤ (times a).length; unfold times; rw [List.length_map]; exact hp.two⟩
  have hR : RealFunction a.ellMax (modesOf (cut a.ellMax (Cwwy.rowOf f))) := by
    intro ell m q0 q1 qm
    rw [modes_cut f q0 q1 qm, modes_cut f q0 q1 (by rwa [abs_neg])]
    exact h.real ell m q0 q1 qm
  have hA : AtRest (cut a.ellMax (Cwwy.rowOf f)) := by
    have hL := hp.ell
    constructor
    · rw [modes_cut f le_rfl (by omega) (by simp)]
      exact h.energy
    · intro m hm
      rw [modes_cut f (by omega) hL hm]
      exact h.momentum m hm
  obtain ⟨T, t1, t2, t3, t4⟩ := Verif.Props.Moreschi.superrest_converges hE hs hp.ell hC hR hA N hN x hx
  unfold SuperrestMap.supertranslation
  rw [psi_stationary hp h, ok_bind, t1, ok_bind]
  show Except.ok { T with super := cut a.ellMax T.super } = _
  congr 1
  unfold Tr.one
  rw [t2, t3]
  congr 1
  funext i
  unfold cut
  by_cases hi : 0 ≤ i ∧ i < (a.ellMax + 1) ^ 2
  · rw [if_pos hi]
    have h1 : Int.sqrt i * Int.sqrt i ≤ i := by
      have := Nat.sqrt_le i.toNat
      unfold Int.sqrt
      omega
    have h3 : i < (Int.sqrt i + 1) * (Int.sqrt i + 1) := by
      have := Nat.lt_succ_sqrt i.toNat
      have h : (i.toNat : Int) = i := Int.toNat_of_nonneg hi.1
      rw [← h]
      unfold Int.sqrt
      exact_mod_cast this
    have h0 : 0 ≤ Int.sqrt i := by
      unfold Int.sqrt
      omega
    have hm : |i - Int.sqrt i * (Int.sqrt i + 1)| ≤ Int.sqrt i := abs_le.2 ⟨by nlinarith, by nlinarith⟩
    have hl : Int.sqrt i ≤ a.ellMax := by
      by_contra hc
      push Not at hc
      have := hp.ell
      nlinarith [hi.2]
    have e := t4 (Int.sqrt i) (i - Int.sqrt i * (Int.sqrt i + 1)) h0 hl hm
    unfold modesOf at e
    rw [show lmIndex (Int.sqrt i) (i - Int.sqrt i * (Int.sqrt i + 1)) 0 = i by unfold lmIndex; ring] at e
    rw [e]
    by_cases hl2 : Int.sqrt i < 2
    · rw [if_pos hl2]
    · rw [if_neg hl2]
      have e2 := modes_cut f h0 hl hm
      rw [h2 _ _ (by omega) hl hm] at e2
      unfold modesOf at e2
      rw [show lmIndex (Int.sqrt i) (i - Int.sqrt i * (Int.sqrt i + 1)) 0 = i by unfold lmIndex; ring] at e2
      rw [e2, mul_zero, zero_div]
  · rw [if_neg hi]

/-! ## The function -/

theorem nice_zero (hp : Spec.FrameErrors.Proper c.toExt a) {f : Modes} (h : Stationary c.toExt a f) (hn : Nice c.toExt none a) (ell m : Int) (h2 : 2 ≤ ell) (hl : ell ≤ a.ellMax) (hm : |m| ≤ ell) : f ell m = 0 := by
  obtain ⟨k, d, g, -, n2, n3, n4⟩ := hn
  obtain ⟨g', s1, s2⟩ := h.same d (List.mem_of_getElem? n2)
  rw [n3] at s1
  cases s1
  rw [← s2 ell m (by omega) hl hm]
  exact n4 ell m h2 hl (abs_le.1 hm).1 (abs_le.1 hm).2

theorem errors_zero (hp : Spec.FrameErrors.Proper c.toExt a) (hI : PositiveIntegral c.integrate) (h : InSuperrest c.toExt a) : errors c.toExt none a = .ok (.fin 0, .fin 0, .fin 0) := by
  obtain ⟨x, y, z, e, -, -, hx, hz, hy⟩ := errors_spec hp hI none (fun _ h => by cases h)
  rw [e, hx.2 h.centered, hz.2 h.nice]
  rcases hy with ⟨⟨d, hd, hs⟩, -⟩ | ⟨-, r, rfl, -, hr⟩
  · obtain ⟨s, k1, k2, k3, k4⟩ := h.upright d hd
    obtain ⟨E, p1, p2, p3, hP, hE, hm⟩ := hp.massive d hd
    obtain ⟨v, -, k5⟩ := spin_eq d E p1 p2 p3 hP hE hm
    rw [(k5 s).1 k1, ← (k5 0).1 hs] at k4
    exact absurd k4 (lt_irrefl _)
  · rw [hr.2 h.upright]

theorem fold_one {o : Outer Data Tr} {interp : Data} {b : Tr} (order : List Step) (hs : ∀ s ∈ order, s ≠ .timePhase ∧ s ≠ .other ∧ o.solve s a = .ok Tr.one) (h1 : o.compose Tr.one b = .ok b) (h2 : o.transform interp b = .ok a)
    (v : SuperrestLoop.Inner Data Tr) (hb : v.bms = b) (ha : v.abd = a) (hr : v.rel = .start) : ∃ new, order.foldlM (SuperrestLoop.inner o false interp) v = .ok { new := new, bms := b, abd := a, rel := .start } := by
  induction order generalizing v with
  | nil =>
    obtain ⟨new, bms, abd, rel⟩ := v
    cases hb
    cases ha
    cases hr
    exact ⟨new, rfl⟩
  | cons s l ih =>
    obtain ⟨q1, q2, q3⟩ := hs s (by simp)
    have e : SuperrestLoop.inner o false interp v s = .ok { new := some Tr.one, bms := b, abd := a, rel := .start } := by
      unfold SuperrestLoop.inner find
      cases s with
      | timePhase => exact absurd rfl q1
      | other => exact absurd rfl q2
      | _ => simp only [ha, q3, ok_bind, hb, h1, h2, hr, pure_eq_ok]
    rw [List.foldlM_cons, e, ok_bind]
    exact ih (fun s' hs' => hs s' (by simp [hs'])) _ rfl rfl rfl

/-- The window reaches 200 further than `padding_time` in both directions. -/
theorem window_spec (a : Data) (ha : a.at' ≠ []) (t0 padding : ℝ) : ∃ w, window t0 padding a = .ok w ∧ Window a t0 (padding + 200) w := by
  have hne : times a ≠ [] := by simpa [times] using ha
  obtain ⟨i, i1, i2⟩ := Verif.Props.AbdFrame.nearest_spec (times a) (t0 - (padding + 200)) hne
  obtain ⟨j, j1, j2⟩ := Verif.Props.AbdFrame.nearest_spec (times a) (t0 + (padding + 200)) hne
  refine ⟨{ a with at' := (a.at'.drop i).take (j + 1 - i) }, ?_, rfl, i, j, i2, j2, fun n => ?_⟩
  · unfold window
    rw [i1, ok_bind, j1, ok_bind]
    rfl
  · show ((a.at'.drop i).take (j + 1 - i))[n]? = _
    rw [List.getElem?_take, List.getElem?_drop]
    by_cases h : i + n ≤ j
    · rw [if_pos h, if_pos (by omega)]
    · rw [if_neg h, if_neg (by omega)]

/-- C104: if the data, with the time counted from `t_0`, are those of a stationary object in the superrest frame, `map_to_superrest_frame` finds the identity, whatever the order of the solvers: it returns the data as they are, the identity
and the errors 0. -/
theorem already (hE : Exact c.map2salm) (hs : ConstSpline c.spline) (hI : PositiveIntegral c.integrate) {t0 : ℝ} (hg : Group c t0) {o : Opts} (ho : Sensible o) (order : List Step)
    (hk : ∀ s ∈ order, s = .supertranslation ∨ s = .rotation ∨ s = .com) (padding : ℝ) (abd interp : Data) (hw : window t0 padding abd = .ok interp) (hshift : c.transform interp (timeTranslation t0) = .ok a) (hp : Spec.FrameErrors.Proper c.toExt a)
    (hr : InSuperrest c.toExt a) {f : Modes} (hf : Stationary c.toExt a f) : mapToSuperrest c o order t0 padding abd = .ok (abd, Tr.one, .tuple (.fin 0) (.fin 0) (.fin 0)) := by
  obtain ⟨x1, tx1, px1⟩ := ho.comTol
  obtain ⟨x2, tx2, px2⟩ := ho.rotationTol
  obtain ⟨x3, tx3, px3⟩ := ho.supertranslationTol
  have hsolve : ∀ s ∈ order, s ≠ .timePhase ∧ s ≠ .other ∧ (calls c o).solve s a = .ok Tr.one := by
    intro s h
    rcases hk s h with rfl | rfl | rfl
    · refine ⟨by simp, by simp, ?_⟩
      show SuperrestMap.supertranslation c o.supertranslation o.supertranslationTol a = _
      rw [tx3]
      exact supertranslation_one hE hs hp hf (nice_zero hp hf hr.nice) ho.supertranslation px3
    · refine ⟨by simp, by simp, ?_⟩
      show (SuperrestLoop.rotation (rotationEnv c) a o.rotation o.rotationTol >>= _) = _
      rw [rotation_one hp hI hr.upright hg.one (hg.same a) ho.rotation (tol := o.rotationTol) (by rw [tx2]; exact px2)]
      rfl
    · refine ⟨by simp, by simp, ?_⟩
      show (SuperrestLoop.com (comEnv c) a o.com o.comTol >>= _) = _
      rw [com_one hp hI hr.centered hg.one (hg.same a) ho.com (tol := o.comTol) (by rw [tx1]; exact px1)]
      rfl
  obtain ⟨n, hn⟩ : ∃ n, o.passes.toNat = n + 1 := ⟨o.passes.toNat - 1, by have := ho.passes; omega⟩
  obtain ⟨new, hfold⟩ := fold_one (interp := interp) order hsolve hg.left hshift { new := none, bms := timeTranslation t0, abd := a, rel := .start } rfl rfl rfl
  have stop : ∀ k st, converged (o.comTol, o.rotationTol, o.supertranslationTol) st.v.rel → outer (calls c o) false order (n + 1) (o.comTol, o.rotationTol, o.supertranslationTol) interp k st = .ok st := by
    intro k st hc
    cases k with
    | zero => rfl
    | succ k => exact if_neg fun h => h.2 hc
  have e : outer (calls c o) false order (n + 1) (o.comTol, o.rotationTol, o.supertranslationTol) interp (n + 1)
      { itr := 0, v := { new := none, bms := timeTranslation t0, abd := interp, rel := .start }, rels := [.start], best := none, bestRel := .start } =
      .ok { itr := 1, v := { new := new, bms := timeTranslation t0, abd := a, rel := .tuple (.fin 0) (.fin 0) (.fin 0) }, rels := [.start, .tuple (.fin 0) (.fin 0) (.fin 0)], best := some (timeTranslation t0), bestRel := .tuple (.fin 0) (.fin 0) (.fin 0) } := by
    refine (if_pos ⟨Nat.succ_pos _, fun h => h⟩).trans ?_
    have e1 : firstPass (calls c o) interp { itr := 0, v := { new := none, bms := timeTranslation t0, abd := interp, rel := .start }, rels := [.start], best := none, bestRel := .start } =
        .ok { new := none, bms := timeTranslation t0, abd := a, rel := .start } := by
      unfold firstPass
      rw [if_pos rfl]
      show (c.transform interp (timeTranslation t0) >>= _) = _
      rw [hshift]
      rfl
    rw [e1, ok_bind, hfold, ok_bind]
    have e2 : relAfter (calls c o) false order { new := new, bms := timeTranslation t0, abd := a, rel := .start } = .ok (.tuple (.fin 0) (.fin 0) (.fin 0)) := by
      unfold relAfter
      show (errors c.toExt none a >>= _) = _
      rw [errors_zero hp hI hr]
      rfl
    rw [e2, ok_bind]
    have e3 : (Rel.tuple (.fin 0) (.fin 0) (.fin 0)).mean.lt (pyMin ([Rel.start].map Rel.mean)) := trivial
    simp only [if_pos e3]
    exact stop n _ ⟨by rw [tx1]; exact px1, by rw [tx2]; exact px2, by rw [tx3]; exact px3⟩
  unfold mapToSuperrest
  rw [hw, ok_bind, hg.right, ok_bind]
  unfold superrest
  rw [hn, e]
  show (c.compose (timeTranslation (-t0)) (timeTranslation t0) >>= _) = _
  rw [hg.back, ok_bind]
  show (c.transform abd Tr.one >>= _) = _
  rw [hg.same]
  rfl

/-! ## Soundness -/

theorem chain_data {o : Outer Data Tr} {interp : Data} {order : List Step} {x y : Tr × Data × Option Err} (h : Chain o interp order x y) (hx : o.transform interp x.1 = .ok x.2.1) : o.transform interp y.1 = .ok y.2.1 := by
  induction h with
  | nil => exact hx
  | solve _ _ _ _ _ _ _ _ _ _ _ _ h4 _ ih => exact ih h4
  | align _ _ _ _ _ _ _ _ _ _ _ h4 _ ih => exact ih h4

theorem passes_data {o : Outer Data Tr} {interp a0 : Data} {order : List Step} {b0 : Tr} {l : List (Tr × Rel)} {b : Tr} {d : Data} (h : Passes o false order interp b0 a0 l b d) (h0 : o.transform interp b0 = .ok a0) :
    o.transform interp b = .ok d ∧ ∀ x ∈ l, ∃ d' e1 e2 e3, o.transform interp x.1 = .ok d' ∧ o.errors d' = .ok (e1, e2, e3) ∧ x.2 = .tuple e1 e2 e3 := by
  induction h with
  | nil => exact ⟨h0, fun _ h => by cases h⟩
  | snoc l b b' d d' al r _ hc hm ih =>
    have hd := chain_data hc ih.1
    refine ⟨hd, fun x hx => ?_⟩
    rcases List.mem_append.1 hx with hx | hx
    · exact ih.2 x hx
    · obtain rfl := List.mem_singleton.1 hx
      unfold Measured at hm
      rw [if_neg (fun h => by cases h.1)] at hm
      obtain ⟨e1, e2, e3, h1, h2⟩ := hm
      exact ⟨d', e1, e2, e3, hd, h1, h2⟩

/-- C104, the converse: the errors that are returned are those of the data near `t_0` in the frame that was found, with the time counted from `t_0`.  If they are 0, the data are in the superrest frame there; the transformation that is returned is that one with the time
translation undone, and the data returned are transformed with it. -/
theorem sound (hI : PositiveIntegral c.integrate) (o : Opts) (order : List Step) (hk : ∀ s ∈ order, s = .supertranslation ∨ s = .rotation ∨ s = .com) (t0 padding : ℝ) (abd abd' : Data) (b : Tr) (r : Rel)
    (h : mapToSuperrest c o order t0 padding abd = .ok (abd', b, r)) :
    c.transform abd b = .ok abd' ∧ ∃ interp T d, Window abd t0 (padding + 200) interp ∧ c.transform interp T = .ok d ∧ c.compose (timeTranslation (-t0)) T = .ok b ∧ (∃ e1 e2 e3, errors c.toExt none d = .ok (e1, e2, e3) ∧ r = .tuple e1 e2 e3) ∧
      (Spec.FrameErrors.Proper c.toExt d → (r = .tuple (.fin 0) (.fin 0) (.fin 0) ↔ InSuperrest c.toExt d)) := by
  unfold mapToSuperrest at h
  have ha : abd.at' ≠ [] := by
    intro ha
    have : window t0 padding abd = .error .valueError := by
      unfold window times
      rw [ha]
      rfl
    rw [this] at h
    cases h
  obtain ⟨interp, w1, w2⟩ := window_spec abd ha t0 padding
  rw [w1, ok_bind] at h
  rcases e0 : c.compose (timeTranslation t0) Tr.one with x | b0
  · rw [e0] at h
    cases h
  rw [e0, ok_bind] at h
  have known : Known false order := by
    intro s hs
    rcases hk s hs with rfl | rfl | rfl <;> simp
  rcases h0 : c.transform interp b0 with x | a0
  · exfalso
    by_cases hN : o.passes ≤ 0
    · rw [Verif.Props.SuperrestLoop.superrest_no_iterations (calls c o) false order o.passes hN _ abd interp b0 (timeTranslation (-t0))] at h
      cases h
    · obtain ⟨n, hn⟩ : ∃ n, o.passes.toNat = n + 1 := ⟨o.passes.toNat - 1, by omega⟩
      unfold superrest at h
      rw [hn] at h
      have e1 : outer (calls c o) false order (n + 1) (o.comTol, o.rotationTol, o.supertranslationTol) interp (n + 1) { itr := 0, v := { new := none, bms := b0, abd := interp, rel := .start }, rels := [.start], best := none, bestRel := .start } = .error x := by
        refine (if_pos ⟨Nat.succ_pos _, fun h => h⟩).trans ?_
        unfold firstPass
        rw [if_pos rfl]
        show ((c.transform interp b0 >>= _) >>= _) = _
        rw [h0]
        rfl
      rw [e1] at h
      cases h
  obtain ⟨l, b1, d1, i, T, p1, -, p3, -, p5, p6⟩ := Verif.Props.SuperrestLoop.superrest_best_partial (calls c o) false order known o.passes _ _ _ abd interp b0 _ a0 h0 abd' b r h
  obtain ⟨d, e1, e2, e3, q1, q2, q3⟩ := (passes_data p1 h0).2 _ (List.mem_of_getElem? p3)
  refine ⟨p6, interp, T, d, w2, q1, p5, ⟨e1, e2, e3, q2, q3⟩, fun hp => ?_⟩
  have q3 : r = .tuple e1 e2 e3 := q3
  have q2 : errors c.toExt none d = .ok (e1, e2, e3) := q2
  constructor
  · intro hr
    rw [hr] at q3
    cases q3
    obtain ⟨x, y, z, e, -, -, hx, hz, hy⟩ := errors_spec hp hI none (fun _ h => by cases h)
    rw [e] at q2
    have q2 := Except.ok.inj q2
    have k1 := congrArg Prod.fst q2
    have k2 := congrArg (fun p => p.2.1) q2
    have k3 := congrArg (fun p => p.2.2) q2
    cases k1
    cases k3
    simp only at k2
    rcases hy with ⟨-, hy⟩ | ⟨-, r', hy, -, hr'⟩
    · rw [hy] at k2
      cases k2
    · rw [hy] at k2
      cases k2
      exact ⟨hx.1 rfl, hr'.1 rfl, hz.1 rfl⟩
  · intro hr
    rw [errors_zero hp hI hr] at q2
    cases q2
    exact q3

/-! ## The hypotheses can be met -/

/-- Transformations without rotations and boosts are added, and the times are shifted. -/
noncomputable def shiftCalls (map2salm : List ℂ → Int → Int → Row ℂ) (spline : List ℝ → List ℝ → ℝ → ℝ) : Calls :=
  { holeExt with
    map2salm := map2salm
    spline := spline
    compose := fun S T => .ok { super := fun i => S.super i + T.super i, rotation := S.rotation * T.rotation, boost := S.boost + T.boost }
    transform := fun a T => .ok { a with at' := a.at'.map fun d => { d with t := d.t - (T.super 0).re / √(4 * Real.pi) } } }

theorem shift_group (map2salm : List ℂ → Int → Int → Row ℂ) (spline : List ℝ → List ℝ → ℝ → ℝ) (t0 : ℝ) : Group (shiftCalls map2salm spline) t0 := by
  constructor
  · simp [shiftCalls, Tr.one]
  · simp [shiftCalls, Tr.one, timeTranslation]
  · simp [shiftCalls, Tr.one, timeTranslation]
  · simp only [shiftCalls, Tr.one, timeTranslation, mul_one, add_zero]
    congr 2
    funext i
    by_cases h : i = 0
    · rw [if_pos h, if_pos h, TransformKwargs.constantAs, TransformKwargs.constantAs, ← Complex.ofReal_add]
      simp
    · rw [if_neg h, if_neg h, add_zero]
  · intro a
    simp [shiftCalls, Tr.one]

theorem hole_of_mem {d : Abd} (hd : d ∈ (holes 1).at') : ∃ t, d = hole 1 t := by
  simp only [holes, List.mem_cons, List.not_mem_nil, or_false] at hd
  rcases hd with rfl | rfl
  · exact ⟨_, rfl⟩
  · exact ⟨_, rfl⟩

theorem holes_rest : InSuperrest holeExt (holes 1) := by
  have pos : 0 < 1 / √3 / √(4 * Real.pi) / (1 / √(4 * Real.pi)) ^ 2 := by positivity
  refine ⟨fun d h => ?_, fun d h => ?_, ?_⟩
  · obtain ⟨t, rfl⟩ := hole_of_mem h
    exact hole_com 1 t
  · obtain ⟨t, rfl⟩ := hole_of_mem h
    exact ⟨_, hole_spin 1 t, rfl, rfl, pos⟩
  · refine ⟨0, hole 1 0, _, ⟨0, rfl, ?_, fun j v hj => absurd hj (Nat.not_lt_zero _)⟩, rfl, rfl, ?_⟩
    · intro v _
      rw [sub_zero, abs_zero]
      exact abs_nonneg _
    · intro ell m h1 _ _ _
      simp [hole, holeExt, ethGHP, bar]
      omega

theorem holes_stationary : Stationary holeExt (holes 1) (fun ell m => if ell = 0 ∧ m = 0 then -1 else 0) := by
  refine ⟨fun d h => ?_, fun ell m _ _ _ => ?_, by simp, fun m _ => by simp⟩
  · obtain ⟨t, rfl⟩ := hole_of_mem h
    refine ⟨_, rfl, fun ell m _ _ _ => ?_⟩
    simp [hole, holeExt, ethGHP, bar]
  · by_cases h : ell = 0 ∧ m = 0
    · simp [h.1, h.2]
    · rw [if_neg h, if_neg (by omega)]
      simp

/-- A spinning black hole, looked at around the time 100: the result is the identity. -/
example : ∃ map2salm spline, mapToSuperrest (shiftCalls map2salm spline) { passes := 2, com := 10, rotation := 10, supertranslation := 10, comTol := .fin (1 / 10 ^ 12), rotationTol := .fin (1 / 10 ^ 12), supertranslationTol := .fin (1 / 10 ^ 12) }
    [.supertranslation, .rotation, .com] 100 250 { at' := [hole 1 100, hole 1 101], ellMax := 8 } =
    .ok ({ at' := [hole 1 100, hole 1 101], ellMax := 8 }, Tr.one, .tuple (.fin 0) (.fin 0) (.fin 0)) := by
  obtain ⟨map2salm, hE⟩ : ∃ map2salm, Exact map2salm := Verif.Props.GridMultiply.exact_exists
  obtain ⟨spline, hs⟩ : ∃ spline, ConstSpline spline := ⟨fun _ y _ => y.headD 0, fun t c x h => by
    obtain ⟨n, hn⟩ : ∃ n, t.length = n + 1 := ⟨t.length - 1, by omega⟩
    rw [hn]; rfl⟩
  have hI : PositiveIntegral (shiftCalls map2salm spline).integrate := fun y t hl hp h2 hn => ⟨Verif.Props.AbdFrame.trap_nonneg y t hl hp hn, Verif.Props.AbdFrame.trap_zero y t hl hp h2 hn⟩
  refine ⟨map2salm, spline, already (a := holes 1) hE hs hI (shift_group map2salm spline 100) ?_ _ (by simp) 250 _ (interp := { at' := [hole 1 100, hole 1 101], ellMax := 8 }) ?_ ?_ (holes_proper 1) holes_rest holes_stationary⟩
  · exact ⟨by norm_num, by norm_num, by norm_num, by norm_num, ⟨_, rfl, by norm_num⟩, ⟨_, rfl, by norm_num⟩, ⟨_, rfl, by norm_num⟩⟩
  · unfold window times
    have n1 : AbdFrame.nearest [100, 101] (100 - (250 + 200)) = .ok 0 := by
      norm_num [AbdFrame.nearest, AbdFrame.argmin, AbdFrame.argminFrom]
    have n2 : AbdFrame.nearest [100, 101] (100 + (250 + 200)) = .ok 1 := by
      norm_num [AbdFrame.nearest, AbdFrame.argmin, AbdFrame.argminFrom]
    simp only [List.map_cons, List.map_nil, show ∀ x, (hole 1 x).t = x from fun _ => rfl, n1, n2, ok_bind]
    rfl
  · have h : √(4 * Real.pi) ≠ 0 := by positivity
    have e : ∀ x : ℝ, x * √(4 * Real.pi) / √(4 * Real.pi) = x := fun x => by field_simp
    simp only [shiftCalls, timeTranslation, Tr.one, if_true, TransformKwargs.constantAs, Complex.ofReal_re, e, List.map_cons, List.map_nil, holes, hole]
    norm_num

end Verif.Props.SuperrestMap
