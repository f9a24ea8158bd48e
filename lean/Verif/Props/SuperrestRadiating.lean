import Verif.Spec.SuperrestRadiating
import Verif.Props.SuperrestAny

/-!
# C79 for data that radiate into all directions alike
-/

namespace Verif.Props.SuperrestRadiating
open Verif Verif.Modes Verif.Superrest Verif.GridMultiply Verif.GridMultiply.Spec Verif.SuperrestLoop Verif.Moreschi Verif.Spec.Moreschi Verif.Props.Moreschi Verif.Spec.SuperrestLoop Verif.Props.SuperrestAny
  Verif.Spec.SuperrestRadiating ComplexConjugate

variable {map2salm : List ℂ → Int → Int → Row ℂ} {spline : List ℝ → List ℝ → ℝ → ℝ} {L : Int} {psi : MTS} {row : Row ℂ} {b : ℝ}

theorem loss_expansion (hL : 1 ≤ L) (b : ℝ) (R : Quaternion ℝ) : expansion 0 L (modesOf fun i => if i = 0 then ((b * √(4 * Real.pi) : ℝ) : ℂ) else 0) R = b := by
  rw [expansion_congr' (d := fun a c => if a = 0 ∧ c = 0 then ((b * √(4 * Real.pi) : ℝ) : ℂ) else 0) (fun ell m h0 h1 hm => ?_) R, Verif.Props.GridMultiply.single L 0 0 le_rfl (by omega) (by simp) le_rfl 0 _ R, Verif.Sphere.Y000,
    ← Complex.ofReal_mul]
  · congr 1
    have : √(4 * Real.pi) ≠ 0 := by positivity
    field_simp
  · rw [abs_le] at hm
    unfold modesOf lmIndex
    beta_reduce
    by_cases h : ell = 0 ∧ m = 0
    · rw [if_pos h, if_pos (by rw [h.1, h.2]; rfl)]
    · rw [if_neg h, if_neg]
      intro h'
      have : ell = 0 := by nlinarith
      subst this
      omega

theorem losing_grid (hL : 1 ≤ L) (hp : Losing psi L row b) : realGrid psi = psi.t.map fun u => (nodes (size L)).map fun R => (expansion 0 L (modesOf row) R).re + u * b := by
  unfold realGrid
  rw [hp.data, hp.ellMax, List.map_map]
  apply List.map_congr_left
  intro u _
  simp only [Function.comp]
  rw [salm_eq, List.map_map]
  apply List.map_congr_left
  intro R _
  simp only [Function.comp]
  have : modesOf (fun i => row i + (u : ℂ) * (if i = 0 then ((b * √(4 * Real.pi) : ℝ) : ℂ) else 0)) =
      fun ell m => modesOf row ell m + (u : ℂ) * modesOf (fun i => if i = 0 then ((b * √(4 * Real.pi) : ℝ) : ℂ) else 0) ell m := rfl
  rw [this, expansion_add, Complex.add_re, expansion_smul, loss_expansion hL, ← Complex.ofReal_mul, Complex.ofReal_re]

theorem factorD_eq {ell : Int} (h : 2 ≤ ell) : factorD ell = (eigenvalue ell : ℂ) := by
  unfold factorD eigenvalue
  rw [if_neg (by omega)]
  push_cast
  ring

theorem factorDinv_eq {ell : Int} (h : 2 ≤ ell) : factorDinv ell = ((eigenvalue ell)⁻¹ : ℝ) := by
  unfold factorDinv eigenvalue
  rw [if_neg (by omega)]
  push_cast
  rw [inv_div]

theorem six_le {ell : Int} (h : 2 ≤ ell) : 6 ≤ eigenvalue ell := by
  unfold eigenvalue
  have h : (2 : ℝ) ≤ ell := by exact_mod_cast h
  have h1 : (2 : ℝ) ≤ (ell : ℝ) * (ell - 1) := by nlinarith
  have h2 : (12 : ℝ) ≤ ((ell : ℝ) + 2) * (ell + 1) := by nlinarith
  nlinarith

/-- The supermomentum that is computed is that of the moved frame. -/
theorem moreschi_losing (hE : Exact map2salm) (hs : AffineSpline spline) (hL : 1 ≤ L) (hp : Losing psi L row b) (hr : RealFunction L (modesOf row)) {a : Int → Int → ℂ} (ha : Good L a) :
    ∃ r, moreschi map2salm spline psi (onGrid L a) L = .ok r ∧ ∀ ell m, 0 ≤ ell → ell ≤ L → |m| ≤ ell → modesOf r ell m = moved b (modesOf row) a ell m := by
  have g2 : (psi.t.map fun u => (nodes (size L)).map fun R => (expansion 0 L (modesOf row) R).re + u * b).mapM (pick (size L) (size psi.ellMax)) =
      .ok (psi.t.map fun u => (nodes (size L)).map fun R => (expansion 0 L (modesOf row) R).re + u * b) := by
    rw [hp.ellMax]
    exact mapM_map_ok _ _ _ (fun u => pick_same _ _) _
  have g3 := interp_affine hs hp.times hp.increasing (nodes (size L)) (fun R => (expansion 0 L (modesOf row) R).re) (fun _ => b) (fun R => (expansion 0 L a R).re)
  have g4 : interp spline psi.t (psi.data.map fun row => conformal row L) (onGrid L a) = (nodes (size L)).map fun _ => 1 := by
    have := interp_affine hs hp.times hp.increasing (nodes (size L)) (fun _ => 1) (fun _ => 0) (fun R => (expansion 0 L a R).re)
    simp only [mul_zero, add_zero] at this
    have e : (psi.data.map fun row => conformal row L) = psi.t.map fun _ => (nodes (size L)).map fun _ => (1 : ℝ) := by
      rw [List.map_congr_left fun r hr => rest_conformal (hp.rest r hr) L, hp.data, List.map_map]
      rfl
    rw [e]
    exact this
  set D := opD (map2salm ((onGrid L a).map fun x : ℝ => (x : ℂ)) 0 L) L with hD
  have dm : ∀ ell m, 0 ≤ ell → ell ≤ L → |m| ≤ ell → modesOf D ell m = eigenvalue ell * a ell m := fun ell m q0 q1 qm => by
    rw [hD, D_modes _ q1 qm, onGrid_modes hE hL ha.1 q0 q1 qm]
    by_cases hl : ell < 2
    · rw [ha.2 ell m hl, zero_mul, mul_zero]
    · rw [factorD_eq (by omega), mul_comm]
  refine ⟨map2salm ((nodes (size L)).map (expansion 0 L (moved b (modesOf row) a))) 0 L, ?_, fun ell m q0 q1 qm => hE 0 L _ ell m hL (by simpa using q0) q1 (abs_le.1 qm).1 (abs_le.1 qm).2⟩
  unfold moreschi
  rw [losing_grid hL hp, g2]
  show Except.ok (map2salm _ 0 L) = _
  rw [g4, ← hD]
  unfold onGrid at *
  rw [g3, salm_eq, List.zip_map', List.zipWith_map, List.zipWith_self]
  congr 2
  apply List.map_congr_left
  intro R hR
  rw [expansion_congr' dm]
  have e : moved b (modesOf row) a = fun ell m => modesOf row ell m + ((b : ℂ) * a ell m + (-1) * (eigenvalue ell * a ell m)) := by
    funext ell m
    unfold moved
    ring
  rw [e, expansion_add, expansion_add, expansion_smul, expansion_smul]
  have h1 := expansion_real hr R
  have h2 := expansion_real ha.1 R
  push_cast
  rw [← h1, ← h2]
  ring

/-! ## The passes -/

/-- The supertranslation after `n` passes. -/
noncomputable def shift (b : ℝ) (Ψ : Int → Int → ℂ) : Nat → Int → Int → ℂ
  | 0 => fun _ _ => 0
  | n + 1 => fun ell m => if ell < 2 then 0 else (Ψ ell m + b * shift b Ψ n ell m) * ((eigenvalue ell)⁻¹ : ℝ)

theorem shift_succ (b : ℝ) (Ψ : Int → Int → ℂ) (n : Nat) (ell m : Int) : shift b Ψ (n + 1) ell m = if ell < 2 then 0 else (Ψ ell m + b * shift b Ψ n ell m) * ((eigenvalue ell)⁻¹ : ℝ) := rfl

theorem moved_shift (Ψ : Int → Int → ℂ) (n : Nat) {ell : Int} (h : 2 ≤ ell) (m : Int) : moved b Ψ (shift b Ψ n) ell m = ((b / eigenvalue ell : ℝ) : ℂ) ^ n * Ψ ell m := by
  have h6 := six_le h
  have hne : (eigenvalue ell : ℂ) ≠ 0 := by
    rw [Ne, Complex.ofReal_eq_zero]
    linarith
  induction n with
  | zero => simp [moved, shift]
  | succ n ih =>
    rw [pow_succ, mul_assoc, mul_comm _ (Ψ ell m), ← mul_assoc, ← ih]
    unfold moved
    rw [shift_succ, if_neg (by omega)]
    push_cast
    field_simp
    ring

theorem good_shift {Ψ : Int → Int → ℂ} (hr : RealFunction L Ψ) (n : Nat) : Good L (shift b Ψ n) := by
  induction n with
  | zero => exact ⟨fun _ _ _ _ _ => by simp [shift], fun _ _ _ => rfl⟩
  | succ n ih =>
    refine ⟨fun ell m h0 h1 hm => ?_, fun ell m hl => if_pos hl⟩
    rw [shift_succ, shift_succ]
    by_cases hl : ell < 2
    · rw [if_pos hl, if_pos hl]
      simp
    · rw [if_neg hl, if_neg hl, hr ell m h0 h1 hm, ih.1 ell m h0 h1 hm]
      simp only [map_mul, map_add, Complex.conj_ofReal]
      ring

theorem moved_low {a : Int → Int → ℂ} (ha : Good L a) {Ψ : Int → Int → ℂ} {ell : Int} (h : ell < 2) (m : Int) : moved b Ψ a ell m = Ψ ell m := by
  unfold moved
  rw [ha.2 ell m h]
  ring

/-- One pass. -/
theorem step_losing (hE : Exact map2salm) (hs : AffineSpline spline) (hL : 1 ≤ L) (hp : Losing psi L row b) (hr : RealFunction L (modesOf row)) (h0 : AtRest row) (n : Nat) (v : Vars)
    (hv : v.alpha = onGrid L (shift b (modesOf row) n))
    (hn : n ≠ 0 → ∃ r, moreschi map2salm spline psi v.alpha L = .ok r ∧ v.rest = some (r, .number (restMass r), conformal r L)) :
    ∃ r, moreschi map2salm spline psi (onGrid L (shift b (modesOf row) (n + 1))) L = .ok r ∧
      step map2salm spline psi none L n v = .ok ({ alpha := onGrid L (shift b (modesOf row) (n + 1)), rest := some (r, .number (restMass r), conformal r L) }, .fin (norm4 r L)) := by
  have key : ∀ r, moreschi map2salm spline psi v.alpha L = .ok r → perturbation map2salm r (.number (restMass r)) (conformal r L) L =
      .ok (onGrid L fun ell m => if ell < 2 then 0 else moved b (modesOf row) (shift b (modesOf row) n) ell m * ((eigenvalue ell)⁻¹ : ℝ)) := by
    intro r h
    obtain ⟨r', h', hm⟩ := moreschi_losing hE hs hL hp hr (good_shift (b := b) hr n)
    rw [hv, h'] at h
    cases h
    have rest : AtRest r := by
      constructor
      · rw [hm 0 0 le_rfl (by omega) (by simp), moved_low (good_shift hr n) (by norm_num)]
        exact h0.energy
      · intro m hm1
        rw [hm 1 m (by omega) hL hm1, moved_low (good_shift hr n) (by norm_num)]
        exact h0.momentum m hm1
    have h00 : modesOf r 0 0 = modesOf row 0 0 := by
      rw [hm 0 0 le_rfl (by omega) (by simp), moved_low (good_shift hr n) (by norm_num)]
    obtain ⟨M, hM, hT⟩ := (reach_rest map2salm spline hL hr).mass (fun _ _ => 0) r rest h00
    cases hM
    rw [rest_conformal rest, perturbation_const hE hL (d := fun ell m => -(if ell = 0 ∧ m = 0 then modesOf row 0 0 else 0)) ?_ hT]
    · congr 1
      refine onGrid_congr fun ell m q0 q1 qm => ?_
      by_cases hl : ell < 2
      · rw [if_pos hl, factorDinv_low hl, mul_zero]
      · rw [if_neg hl, factorDinv_eq (by omega), hm ell m q0 q1 qm, if_neg (by omega), neg_zero, add_zero]
    · intro ell m q0 q1 qm
      have := (reach_rest map2salm spline hL hr).real ell m q0 q1 qm
      simp only at this ⊢
      rw [this, map_neg]
      ring
  obtain ⟨r, h', -⟩ := moreschi_losing hE hs hL hp hr (good_shift (b := b) hr (n + 1))
  have sum : List.zipWith (· + ·) v.alpha (onGrid L fun ell m => if ell < 2 then 0 else moved b (modesOf row) (shift b (modesOf row) n) ell m * ((eigenvalue ell)⁻¹ : ℝ)) = onGrid L (shift b (modesOf row) (n + 1)) := by
    rw [hv, onGrid_add]
    refine onGrid_congr fun ell m q0 q1 qm => ?_
    by_cases hl : ell < 2
    · rw [if_pos hl, (good_shift (b := b) hr n).2 ell m hl, (good_shift (b := b) hr (n + 1)).2 ell m hl, add_zero]
    · have h6 := six_le (show 2 ≤ ell by omega)
      have hne : (eigenvalue ell : ℂ) ≠ 0 := by
        rw [Ne, Complex.ofReal_eq_zero]
        linarith
      rw [if_neg hl]
      show _ = if ell < 2 then 0 else _
      rw [if_neg hl]
      unfold moved
      push_cast
      field_simp
      ring
  have done : ∀ r0, moreschi map2salm spline psi v.alpha L = .ok r0 →
      (do
        let p ← perturbation map2salm r0 (.number (restMass r0)) (conformal r0 L) L
        let alpha := List.zipWith (· + ·) v.alpha p
        let psiI ← moreschi map2salm spline psi alpha L
        let M ← massFor spline none v.alpha psiI L
        let e ← errorFor map2salm spline none v.alpha psiI L
        pure (({ alpha := alpha, rest := some (psiI, M, conformal psiI L) } : Vars), e)) =
          .ok ({ alpha := onGrid L (shift b (modesOf row) (n + 1)), rest := some (r, .number (restMass r), conformal r L) }, .fin (norm4 r L)) := by
    intro r0 h
    rw [key r0 h]
    simp only [ok_bind, sum, h']
    rfl
  refine ⟨r, h', ?_⟩
  unfold step
  by_cases hn0 : n = 0
  · obtain ⟨r0, h⟩ := moreschi_ok (map2salm := map2salm) (spline := spline) hp.ellMax v.alpha
    simp only [if_pos hn0, h, ok_bind]
    exact done r0 h
  · obtain ⟨r0, h, hx⟩ := hn hn0
    simp only [if_neg hn0, hx, ok_bind]
    exact done r0 h

/-! ## The loop -/

theorem excess_congr {c d : Int → Int → ℂ} (h : ∀ ell m, 2 ≤ ell → ell ≤ L → |m| ≤ ell → c ell m = d ell m) : excess L c = excess L d := by
  unfold excess
  congr 1
  refine Finset.sum_congr rfl fun ell hl => Finset.sum_congr rfl fun m hm => ?_
  rw [Finset.mem_Icc] at hl
  rw [Finset.mem_Icc, ← abs_le] at hm
  rw [h ell m hl.1 hl.2 hm]

/-- The error after `n` passes. -/
noncomputable def errorAfter (L : Int) (b : ℝ) (Ψ : Int → Int → ℂ) (n : Nat) : ℝ := excess L fun ell m => ((b / eigenvalue ell : ℝ) : ℂ) ^ n * Ψ ell m

theorem norm4_losing (hE : Exact map2salm) (hs : AffineSpline spline) (hL : 1 ≤ L) (hp : Losing psi L row b) (hr : RealFunction L (modesOf row)) (n : Nat) {r : Row ℂ}
    (h : moreschi map2salm spline psi (onGrid L (shift b (modesOf row) n)) L = .ok r) : norm4 r L = errorAfter L b (modesOf row) n := by
  obtain ⟨r', h', hm⟩ := moreschi_losing hE hs hL hp hr (good_shift (b := b) hr n)
  rw [h'] at h
  cases h
  rw [norm4_eq hL]
  exact excess_congr fun ell m h1 h2 h3 => by rw [hm ell m (by omega) h2 h3, moved_shift _ _ h1]

theorem trials_losing (hE : Exact map2salm) (hs : AffineSpline spline) (hL : 1 ≤ L) (hp : Losing psi L row b) (hr : RealFunction L (modesOf row)) (h0 : AtRest row) (l : List (Vars × Err)) (s : Vars)
    (h : Trials (step map2salm spline psi none L) { alpha := List.replicate (size L * size L) 0, rest := none } l s) :
    l.map Prod.snd = (List.range l.length).map (fun i => Err.fin (errorAfter L b (modesOf row) (i + 1))) ∧ s.alpha = onGrid L (shift b (modesOf row) l.length) ∧
      (l.length ≠ 0 → ∃ r, moreschi map2salm spline psi s.alpha L = .ok r ∧ s.rest = some (r, .number (restMass r), conformal r L)) := by
  induction h with
  | nil => exact ⟨rfl, zero_grid L, fun h => absurd rfl h⟩
  | snoc l s s' e _ hst ih =>
    obtain ⟨i1, i2, i3⟩ := ih
    obtain ⟨r, k2, k3⟩ := step_losing hE hs hL hp hr h0 l.length s i2 i3
    rw [k3] at hst
    cases hst
    refine ⟨?_, by rw [List.length_append]; rfl, fun _ => ⟨r, k2, rfl⟩⟩
    rw [List.map_append, i1, List.length_append, List.length_singleton, List.range_succ, List.map_append, norm4_losing hE hs hL hp hr _ k2]
    rfl

/-- The errors are those of `(b / D)^n Ψ` with the eigenvalues `D` of `𝔇`. -/
theorem errors_losing (hE : Exact map2salm) (hs : AffineSpline spline) (hL : 1 ≤ L) (hp : Losing psi L row b) (hr : RealFunction L (modesOf row)) (h0 : AtRest row) (N : Int) (tol : Err) (T : Tr) (errs : List ℝ)
    (h : toSuperrest map2salm spline psi none N tol L = .ok (T, .inf :: errs.map Err.fin)) : errs = (List.range errs.length).map fun i => errorAfter L b (modesOf row) (i + 1) := by
  obtain ⟨-, -, -, l, s, -, t1, t2, -⟩ := Verif.Props.SuperrestLoop.supertranslation_best_only _ _ _ _ _ _ _ _ _ h
  obtain ⟨i1, -, -⟩ := trials_losing hE hs hL hp hr h0 l s t1
  have t2 := (List.cons.inj t2).2
  have hlen : errs.length = l.length := by
    have := congrArg List.length t2
    rwa [List.length_map, List.length_map] at this
  rw [i1, ← hlen] at t2
  have inj : Function.Injective Err.fin := fun x y h => by cases h; rfl
  apply List.map_injective_iff.2 inj
  rw [t2, List.map_map]
  rfl

theorem error_bound (Ψ : Int → Int → ℂ) (n : Nat) : errorAfter L b Ψ n ≤ (|b| / 6) ^ n * excess L Ψ := by
  unfold errorAfter excess
  rw [← Real.sqrt_sq (show 0 ≤ (|b| / 6) ^ n by positivity), ← Real.sqrt_mul (by positivity)]
  apply Real.sqrt_le_sqrt
  rw [Finset.mul_sum]
  refine Finset.sum_le_sum fun ell hl => ?_
  rw [Finset.mul_sum]
  refine Finset.sum_le_sum fun m _ => ?_
  rw [Finset.mem_Icc] at hl
  have h6 := six_le hl.1
  rw [norm_mul, norm_pow, mul_pow, Complex.norm_real, Real.norm_eq_abs, abs_div, abs_of_pos (show 0 < eigenvalue ell by linarith)]
  gcongr

theorem error_large (Ψ : Int → Int → ℂ) (hL : 2 ≤ L) (hb : 6 ≤ |b|) (m : Int) (hm : |m| ≤ 2) (n : Nat) : ‖Ψ 2 m‖ ≤ errorAfter L b Ψ n := by
  unfold errorAfter excess
  apply Real.le_sqrt_of_sq_le
  have e2 : eigenvalue 2 = 6 := by norm_num [eigenvalue]
  have h1 : ‖((b / eigenvalue 2 : ℝ) : ℂ) ^ n * Ψ 2 m‖ ^ 2 ≤ ∑ m ∈ Finset.Icc (-2 : Int) 2, ‖((b / eigenvalue 2 : ℝ) : ℂ) ^ n * Ψ 2 m‖ ^ 2 :=
    Finset.single_le_sum (f := fun m => ‖((b / eigenvalue 2 : ℝ) : ℂ) ^ n * Ψ 2 m‖ ^ 2) (fun _ _ => by positivity) (Finset.mem_Icc.2 (abs_le.1 hm))
  have h2 := Finset.single_le_sum (f := fun ell : Int => ∑ m ∈ Finset.Icc (-ell) ell, ‖((b / eigenvalue ell : ℝ) : ℂ) ^ n * Ψ ell m‖ ^ 2) (s := Finset.Icc 2 L) (fun _ _ => by positivity) (Finset.mem_Icc.2 ⟨le_rfl, hL⟩)
  refine le_trans ?_ (h1.trans h2)
  rw [norm_mul, norm_pow, mul_pow, Complex.norm_real, Real.norm_eq_abs, abs_div, e2, abs_of_pos (show (0 : ℝ) < 6 by norm_num)]
  have h3 : 1 ≤ (|b| / 6) ^ n := one_le_pow₀ (by rw [le_div_iff₀ (by norm_num)]; linarith)
  nlinarith [sq_nonneg ‖Ψ 2 m‖, one_le_pow₀ h3 (n := 2)]

/-- **C79**, for data that radiate: if the mass changes by less than 6 (in units with `G = c = 1`) per unit of time, every tolerance is met if enough passes are allowed: in the frame of the supertranslation that is returned,
the modes of the supermomentum with `ell >= 2` are smaller than the tolerance. The error of pass `n` is at most `(|b| / 6)^n` times that of the data. -/
theorem radiating_converges (hE : Exact map2salm) (hs : AffineSpline spline) (hL : 1 ≤ L) (hp : Losing psi L row b) (hr : RealFunction L (modesOf row)) (h0 : AtRest row) (hb : |b| < 6) (tol : ℝ) (htol : 0 < tol) :
    ∃ N0 : Int, ∀ N, N0 ≤ N → ∃ (T : Tr) (errs : List ℝ), toSuperrest map2salm spline psi none N (.fin tol) L = .ok (T, .inf :: errs.map Err.fin) ∧ T.rotation = 1 ∧ T.boost = 0 ∧
      (∀ ell m, 0 ≤ ell → ell ≤ 1 → |m| ≤ ell → modesOf T.super ell m = 0) ∧ RealFunction L (modesOf T.super) ∧
      excess L (moved b (modesOf row) (modesOf T.super)) < tol ∧ ∀ (i : Nat) (e : ℝ), errs[i]? = some e → e ≤ (|b| / 6) ^ (i + 1) * excess L (modesOf row) := by
  have h6 : |b| / 6 < 1 := by rw [div_lt_one (by norm_num)]; exact hb
  obtain ⟨n0, hn0⟩ := exists_pow_lt_of_lt_one (show 0 < tol / (excess L (modesOf row) + 1) from div_pos htol (by unfold excess; positivity)) h6
  have hS : 0 ≤ excess L (modesOf row) := Real.sqrt_nonneg _
  have small : ∀ n, n0 ≤ n → (|b| / 6) ^ n * excess L (modesOf row) < tol := by
    intro n hn
    have h1 : (|b| / 6) ^ n ≤ (|b| / 6) ^ n0 := pow_le_pow_of_le_one (by positivity) h6.le hn
    have h2 : (|b| / 6) ^ n < tol / (excess L (modesOf row) + 1) := lt_of_le_of_lt h1 hn0
    rw [lt_div_iff₀ (by linarith)] at h2
    have h3 : 0 ≤ (|b| / 6) ^ n := by positivity
    nlinarith
  refine ⟨n0 + 1, fun N hN => ?_⟩
  obtain ⟨T, errs, r, a1, a2, a3, a4, a5, a6, a7, a8, -, a10⟩ := attained (spline := spline) (psi := psi) hE hL hp.ellMax N (by omega) tol
  have herr := errors_losing hE hs hL hp hr h0 N _ T errs a1
  have get : ∀ (i : Nat) (e : ℝ), errs[i]? = some e → e = errorAfter L b (modesOf row) (i + 1) := by
    intro i e hi
    have hlt := (List.getElem?_eq_some_iff.1 hi).1
    rw [herr, List.getElem?_map, List.getElem?_range hlt] at hi
    cases hi
    rfl
  refine ⟨T, errs, a1, a2, a3, a4, a5, ?_, fun i e hi => by rw [get i e hi]; exact error_bound _ _⟩
  have good : Good L fun ell m => if ell < 2 then 0 else modesOf T.super ell m := by
    refine ⟨fun ell m q0 q1 qm => ?_, fun ell m hl => if_pos hl⟩
    by_cases hl : ell < 2
    · simp [hl]
    · simp only [if_neg hl]
      exact a5 ell m q0 q1 qm
  have grid : onGrid L (modesOf T.super) = onGrid L fun ell m => if ell < 2 then 0 else modesOf T.super ell m := onGrid_congr fun ell m q0 q1 qm => by
    by_cases hl : ell < 2
    · rw [if_pos hl, a4 ell m q0 (by omega) qm]
    · rw [if_neg hl]
  obtain ⟨r', h', hm⟩ := moreschi_losing hE hs hL hp hr good
  rw [grid, h'] at a6
  cases a6
  have e : excess L (moved b (modesOf row) (modesOf T.super)) = √(∑ ell ∈ Finset.Icc 2 L, ∑ m ∈ Finset.Icc (-ell) ell, ‖modesOf r ell m‖ ^ 2) :=
    excess_congr fun ell m h1 h2 h3 => by
      rw [hm ell m (by omega) h2 h3]
      unfold moved
      beta_reduce
      rw [if_neg (by omega)]
  rw [e]
  rcases a10 with h | h
  · obtain ⟨k, hk⟩ : ∃ k, errs.length = k + 1 := ⟨errs.length - 1, by omega⟩
    have hi : errs[k]? = some errs[k] := List.getElem?_eq_getElem (by omega)
    have h1 := a8 _ (List.mem_of_getElem? hi)
    rw [get k _ hi] at h1
    exact lt_of_le_of_lt (h1.trans (error_bound _ _)) (small _ (by omega))
  · exact h

/-- If the mass changes faster, the passes do not help: the error never falls below the size of any mode with `ell = 2`, whatever number of passes is allowed. -/
theorem radiating_fails (hE : Exact map2salm) (hs : AffineSpline spline) (hL : 2 ≤ L) (hp : Losing psi L row b) (hr : RealFunction L (modesOf row)) (h0 : AtRest row) (hb : 6 ≤ |b|) (m : Int) (hm : |m| ≤ 2)
    (tol : ℝ) (N : Int) (hN : 0 < N) : ∃ (T : Tr) (errs : List ℝ), toSuperrest map2salm spline psi none N (.fin tol) L = .ok (T, .inf :: errs.map Err.fin) ∧ ∀ e ∈ errs, ‖modesOf row 2 m‖ ≤ e := by
  obtain ⟨T, errs, r, a1, -⟩ := attained (spline := spline) (psi := psi) hE (by omega) hp.ellMax N hN tol
  have herr := errors_losing hE hs (by omega) hp hr h0 N _ T errs a1
  refine ⟨T, errs, a1, fun e he => ?_⟩
  rw [herr] at he
  obtain ⟨i, -, rfl⟩ := List.mem_map.1 he
  exact error_large _ hL hb m hm _

/-! ## The hypotheses can be met -/

/-- A black hole with a mode (2,0) that loses energy. -/
noncomputable def lossSeries (b : ℝ) : MTS :=
  { t := [0, 1 / 10], s := 0, ellMax := 2, data := [0, 1 / 10].map fun (t : ℝ) i => bump i + t * (if i = 0 then ((b * √(4 * Real.pi) : ℝ) : ℂ) else 0) }

/-- It meets the hypotheses for every rate up to 6, where the passes stop being of use. -/
example (b : ℝ) (h0 : 0 ≤ b) (h6 : b ≤ 6) : Losing (lossSeries b) 2 bump b where
  ellMax := rfl
  data := rfl
  times := by simp [lossSeries]
  increasing := by norm_num [lossSeries]
  rest := by
    intro r hr
    obtain ⟨t, ht, rfl⟩ := List.mem_map.1 hr
    have hs : √(4 * Real.pi) ≤ 4 := by
      rw [Real.sqrt_le_left (by norm_num)]
      nlinarith [Real.pi_le_four]
    have h4 : b * √(4 * Real.pi) ≤ 24 := by nlinarith [Real.sqrt_nonneg (4 * Real.pi)]
    have htt : t = 0 ∨ t = 1 / 10 := by simpa using ht
    constructor
    · have e : modesOf (fun i => bump i + (t : ℂ) * (if i = 0 then ((b * √(4 * Real.pi) : ℝ) : ℂ) else 0)) 0 0 = ((-3 + t * (b * √(4 * Real.pi)) : ℝ) : ℂ) := by
        simp [modesOf, bump, lmIndex]
      rw [e, Complex.ofReal_re]
      rcases htt with rfl | rfl <;> linarith
    · intro m hm
      rw [abs_le] at hm
      have : m = -1 ∨ m = 0 ∨ m = 1 := by omega
      rcases this with rfl | rfl | rfl <;> simp [modesOf, bump, lmIndex]

example : ‖modesOf bump 2 0‖ = 5 := by
  norm_num [modesOf, bump, lmIndex]

end Verif.Props.SuperrestRadiating
