import Verif.Props.Moreschi
import Verif.Props.FrameErrors

/-!
# C79 for all data: the supertranslation that is returned has the error that is reported
-/

namespace Verif.Props.SuperrestAny
open Verif Verif.Modes Verif.Superrest Verif.GridMultiply Verif.GridMultiply.Spec Verif.SuperrestLoop Verif.Moreschi Verif.Spec.Moreschi Verif.Props.Moreschi Verif.Spec.SuperrestLoop ComplexConjugate

variable {map2salm : List ℂ → Int → Int → Row ℂ} {spline : List ℝ → List ℝ → ℝ → ℝ} {L : Int} {psi : MTS}

/-! ## Real parts -/

/-- The modes of the real part of a function. -/
noncomputable def sym (c : Int → Int → ℂ) : Int → Int → ℂ := fun ell m => (c ell m + (-1) ^ m.natAbs * conj (c ell (-m))) / 2

theorem sign_sq (m : Int) : ((-1 : ℂ)) ^ m.natAbs * (-1) ^ m.natAbs = 1 := by rw [← mul_pow]; norm_num

theorem sym_real (L : Int) (c : Int → Int → ℂ) : RealFunction L (sym c) := by
  intro ell m _ _ _
  unfold sym
  rw [neg_neg, Int.natAbs_neg, map_div₀, map_add, map_mul, Complex.conj_conj, map_pow, map_neg, map_one, Complex.conj_ofNat 2]
  have := sign_sq m
  linear_combination (-(c ell (-m)) / 2) * this

theorem expansion_smul (a : ℂ) (c : Int → Int → ℂ) (R : Quaternion ℝ) : expansion 0 L (fun ell m => a * c ell m) R = a * expansion 0 L c R := by
  unfold expansion
  rw [Finset.mul_sum]
  refine Finset.sum_congr rfl fun ell _ => ?_
  rw [Finset.mul_sum]
  exact Finset.sum_congr rfl fun m _ => mul_assoc _ _ _

theorem expansion_sym (c : Int → Int → ℂ) (R : Quaternion ℝ) : (expansion 0 L (sym c) R).re = (expansion 0 L c R).re := by
  have hd : RealFunction L fun ell m => Complex.I * (c ell m - sym c ell m) := by
    intro ell m _ _ _
    unfold sym
    simp only [neg_neg, Int.natAbs_neg, map_div₀, map_add, map_sub, map_mul, Complex.conj_conj, map_pow, map_neg, map_one, Complex.conj_ofNat 2, Complex.conj_I]
    have := sign_sq m
    linear_combination (-(Complex.I * c ell (-m)) / 2) * this
  have h1 := expansion_real hd R
  rw [expansion_smul] at h1
  have h2 : expansion 0 L c R = expansion 0 L (sym c) R + expansion 0 L (fun ell m => c ell m - sym c ell m) R := by
    rw [← expansion_add]
    congr 1
    funext ell m
    ring
  have h3 := congrArg Complex.im h1
  rw [Complex.mul_im, Complex.I_re, Complex.I_im, Complex.ofReal_im] at h3
  rw [h2, Complex.add_re]
  linarith

theorem onGrid_sym (c : Int → Int → ℂ) : onGrid L (sym c) = onGrid L c := by
  unfold onGrid
  exact List.map_congr_left fun R _ => expansion_sym c R

/-- Real, and without the modes of translations. -/
def Good (L : Int) (a : Int → Int → ℂ) : Prop := RealFunction L a ∧ ∀ ell m, ell < 2 → a ell m = 0

theorem good_sym (c : Int → Int → ℂ) (h : ∀ ell m, ell < 2 → c ell m = 0) : Good L (sym c) :=
  ⟨sym_real L c, fun ell m hl => by unfold sym; rw [h ell m hl, h ell (-m) hl]; simp⟩

theorem good_add {a b : Int → Int → ℂ} (ha : Good L a) (hb : Good L b) : Good L fun ell m => a ell m + b ell m :=
  ⟨real_add ha.1 hb.1, fun ell m hl => by simp only [ha.2 ell m hl, hb.2 ell m hl, add_zero]⟩

/-! ## One pass, for all data -/

theorem mapM_total {α β : Type} (f : α → Py β) (l : List α) (h : ∀ x ∈ l, ∃ y, f x = .ok y) : ∃ ys, l.mapM f = .ok ys := by
  induction l with
  | nil => exact ⟨[], rfl⟩
  | cons x l ih =>
    obtain ⟨y, hy⟩ := h x (by simp)
    obtain ⟨ys, hys⟩ := ih fun z hz => h z (List.mem_cons_of_mem _ hz)
    exact ⟨y :: ys, by rw [List.mapM_cons, hy, hys]; rfl⟩

theorem moreschi_ok (hp : psi.ellMax = L) (alpha : List ℝ) : ∃ r, moreschi map2salm spline psi alpha L = .ok r := by
  obtain ⟨g, hg⟩ := mapM_total (pick (size L) (size psi.ellMax)) (realGrid psi) fun x _ => ⟨_, by rw [hp]; exact if_pos le_rfl⟩
  exact ⟨_, by unfold moreschi; simp only [hg]; rfl⟩

theorem perturbation_ok (r : Row ℂ) (x : ℝ) (K : List ℝ) : ∃ b, Good L b ∧ perturbation map2salm r (.number x) K L = .ok (onGrid L b) := by
  obtain ⟨row, h⟩ : ∃ row, perturbation map2salm r (.number x) K L = .ok ((salm2map (opDinv row L) 0 L (size L)).map Complex.re) := ⟨_, rfl⟩
  refine ⟨sym fun ell m => if ell < 2 then 0 else modesOf (opDinv row L) ell m, good_sym _ fun ell m hl => if_pos hl, ?_⟩
  rw [onGrid_sym, h, salm_eq, List.map_map]
  unfold onGrid
  congr 1
  refine List.map_congr_left fun R _ => ?_
  simp only [Function.comp]
  congr 1
  refine expansion_congr' (fun ell m h0 h1 hm => ?_) R
  by_cases hl : ell < 2
  · rw [if_pos hl, Dinv_modes _ h1 hm]
    unfold factorDinv
    rw [if_pos hl, mul_zero]
  · rw [if_neg hl]

theorem step_ok (hp : psi.ellMax = L) (n : Nat) (v : Vars) (a : Int → Int → ℂ) (ha : Good L a) (hv : v.alpha = onGrid L a) (hr : n ≠ 0 → ∃ r x, v.rest = some (r, .number x, conformal r L)) :
    ∃ b r, Good L b ∧ moreschi map2salm spline psi (onGrid L b) L = .ok r ∧
      step map2salm spline psi none L n v = .ok ({ alpha := onGrid L b, rest := some (r, .number (restMass r), conformal r L) }, .fin (norm4 r L)) := by
  have key : ∀ (r : Row ℂ) (x : ℝ), ∃ b r', Good L b ∧ moreschi map2salm spline psi (onGrid L b) L = .ok r' ∧
      (do
        let p ← perturbation map2salm r (.number x) (conformal r L) L
        let alpha := List.zipWith (· + ·) v.alpha p
        let psiI ← moreschi map2salm spline psi alpha L
        let M ← massFor spline none v.alpha psiI L
        let e ← errorFor map2salm spline none v.alpha psiI L
        pure (({ alpha := alpha, rest := some (psiI, M, conformal psiI L) } : Vars), e)) = .ok ({ alpha := onGrid L b, rest := some (r', .number (restMass r'), conformal r' L) }, .fin (norm4 r' L)) := by
    intro r x
    obtain ⟨b, hb, eb⟩ := perturbation_ok (map2salm := map2salm) (L := L) r x (conformal r L)
    obtain ⟨r', hr'⟩ := moreschi_ok (map2salm := map2salm) (spline := spline) hp (onGrid L fun ell m => a ell m + b ell m)
    refine ⟨_, r', good_add ha hb, hr', ?_⟩
    rw [eb, hv]
    simp only [ok_bind, onGrid_add, hr']
    rfl
  unfold step
  by_cases hn : n = 0
  · obtain ⟨r, hr⟩ := moreschi_ok (map2salm := map2salm) (spline := spline) hp v.alpha
    obtain ⟨b, r', k1, k2, k3⟩ := key r (restMass r)
    refine ⟨b, r', k1, k2, ?_⟩
    simp only [if_pos hn, hr, ok_bind]
    exact k3
  · obtain ⟨r, x, hx⟩ := hr hn
    obtain ⟨b, r', k1, k2, k3⟩ := key r x
    refine ⟨b, r', k1, k2, ?_⟩
    simp only [if_neg hn, hx, ok_bind]
    exact k3

/-! ## The loop -/

/-- What is known after a pass. -/
def Tried (map2salm : List ℂ → Int → Int → Row ℂ) (spline : List ℝ → List ℝ → ℝ → ℝ) (psi : MTS) (L : Int) (v : Vars) (e : Err) : Prop :=
  ∃ b r, Good L b ∧ moreschi map2salm spline psi (onGrid L b) L = .ok r ∧ v = { alpha := onGrid L b, rest := some (r, .number (restMass r), conformal r L) } ∧ e = .fin (norm4 r L)

theorem trials_tried (hp : psi.ellMax = L) (l : List (Vars × Err)) (s : Vars) (h : Trials (step map2salm spline psi none L) { alpha := List.replicate (size L * size L) 0, rest := none } l s) :
    (∀ x ∈ l, Tried map2salm spline psi L x.1 x.2) ∧ (∃ a, Good L a ∧ s.alpha = onGrid L a) ∧ (l.length ≠ 0 → ∃ r x, s.rest = some (r, .number x, conformal r L)) := by
  induction h with
  | nil => exact ⟨(fun _ hx => absurd hx List.not_mem_nil), ⟨fun _ _ => 0, ⟨fun _ _ _ _ _ => by simp, fun _ _ _ => rfl⟩, zero_grid L⟩, fun h => absurd rfl h⟩
  | snoc l s s' e _ hs ih =>
    obtain ⟨i1, ⟨a, ha, hv⟩, i3⟩ := ih
    obtain ⟨b, r, k1, k2, k3⟩ := step_ok (map2salm := map2salm) (spline := spline) hp l.length s a ha hv i3
    rw [k3] at hs
    cases hs
    refine ⟨fun x hx => ?_, ⟨b, k1, rfl⟩, fun _ => ⟨r, _, rfl⟩⟩
    rcases List.mem_append.1 hx with hx | hx
    · exact i1 x hx
    · rw [List.mem_singleton] at hx
      subst hx
      exact ⟨b, r, k1, k2, rfl, rfl⟩

/-- The norm that is taken is that of the modes with `ell >= 2`. -/
theorem norm4_eq (hL : 1 ≤ L) (r : Row ℂ) : norm4 r L = √(∑ ell ∈ Finset.Icc 2 L, ∑ m ∈ Finset.Icc (-ell) ell, ‖modesOf r ell m‖ ^ 2) := by
  have h1 := map_index_LMRange 0 le_rfl (L + 1).toNat
  rw [show (0 : Int) + ((L + 1).toNat : Int) - 1 = L by omega, show (0 : Int) + ((L + 1).toNat : Int) = L + 1 by omega, show (L + 1) ^ 2 - 0 ^ 2 = (L + 1) ^ 2 by ring] at h1
  have h2 : pyRange 4 ((L + 1) ^ 2) = (LMRange 2 L).map fun p => lmIndex p.1 p.2 0 := by
    have h3 := congrArg (List.drop 4) h1
    rw [← List.map_drop, Verif.Props.FrameErrors.drop4 hL, ← pyRange_append (a := 0) (b := 4) (by omega) (by nlinarith)] at h3
    rw [h3]
    rfl
  unfold norm4
  rw [h2, List.map_map, ← Verif.ModeCalc.sum_LMRange]
  rfl

/-- **C79**, for all data, radiating or not: the function returns a supertranslation without translations, and in the frame that is moved by it the supermomentum (as `compute_Moreschi_supermomentum` finds it) has modes with `ell >= 2` whose norm is
the smallest of the errors. It is less than the tolerance, or all passes were made. -/
theorem attained (hE : Exact map2salm) (hL : 1 ≤ L) (hp : psi.ellMax = L) (N : Int) (hN : 0 < N) (tol : ℝ) :
    ∃ (T : Tr) (errs : List ℝ) (r : Row ℂ), toSuperrest map2salm spline psi none N (.fin tol) L = .ok (T, .inf :: errs.map Err.fin) ∧ T.rotation = 1 ∧ T.boost = 0 ∧
      (∀ ell m, 0 ≤ ell → ell ≤ 1 → |m| ≤ ell → modesOf T.super ell m = 0) ∧ RealFunction L (modesOf T.super) ∧
      moreschi map2salm spline psi (onGrid L (modesOf T.super)) L = .ok r ∧
      √(∑ ell ∈ Finset.Icc 2 L, ∑ m ∈ Finset.Icc (-ell) ell, ‖modesOf r ell m‖ ^ 2) ∈ errs ∧ (∀ e ∈ errs, √(∑ ell ∈ Finset.Icc 2 L, ∑ m ∈ Finset.Icc (-ell) ell, ‖modesOf r ell m‖ ^ 2) ≤ e) ∧
      (errs.length : Int) ≤ N ∧ ((errs.length : Int) = N ∨ √(∑ ell ∈ Finset.Icc 2 L, ∑ m ∈ Finset.Icc (-ell) ell, ‖modesOf r ell m‖ ^ 2) < tol) := by
  have total : ∃ x, toSuperrest map2salm spline psi none N (.fin tol) L = .ok x := by
    unfold toSuperrest supertranslation
    rcases e : run (step map2salm spline psi none L) Vars.alpha N (.fin tol) { alpha := List.replicate (size L * size L) 0, rest := none } (List.replicate (size L * size L) 0) with err | ⟨b, es⟩
    · exfalso
      obtain ⟨l, s, h1, -, -, h4⟩ := Verif.Props.SuperrestLoop.run_error _ _ _ _ _ _ _ e
      obtain ⟨-, ⟨a, ha, hv⟩, i3⟩ := trials_tried hp l s h1
      obtain ⟨b, r, -, -, k3⟩ := step_ok (map2salm := map2salm) (spline := spline) hp l.length s a ha hv i3
      rw [k3] at h4
      cases h4
    · exact ⟨_, rfl⟩
  obtain ⟨⟨T, es⟩, hT⟩ := total
  obtain ⟨c1, c2, c3, l, s, b, t1, rfl, t3, t4, t5⟩ := Verif.Props.SuperrestLoop.supertranslation_best_only _ _ _ _ _ _ _ _ _ hT
  obtain ⟨i1, -, -⟩ := trials_tried hp l s t1
  have hne : l ≠ [] := by
    rintro rfl
    rcases t4.2.2 with h | ⟨x, hx, -⟩
    · rw [List.length_nil] at h
      omega
    · cases hx
  have fin : ∀ x ∈ l, ∃ e : ℝ, x.2 = .fin e := fun x hx => by
    obtain ⟨-, r, -, -, -, h⟩ := i1 x hx
    exact ⟨_, h⟩
  rcases t3 with ⟨i, v, e, hi, rfl, e', he', -, least, -⟩ | ⟨-, h⟩
  swap
  · obtain ⟨x, l', rfl⟩ := List.exists_cons_of_ne_nil hne
    obtain ⟨e, he⟩ := fin x (by simp)
    exact absurd (show x.2.lt .inf by rw [he]; trivial) (h _ (by simp))
  rw [List.getElem?_map, hi] at he'
  cases he'
  obtain ⟨a, r, ha, hm, rfl, he⟩ := i1 _ (List.mem_of_getElem? hi)
  have he : e = .fin (norm4 r L) := he
  subst he
  have modes : ∀ ell m, 0 ≤ ell → ell ≤ L → |m| ≤ ell → modesOf T.super ell m = a ell m := by
    intro ell m h0 h1 h2
    by_cases hl : ell < 2
    · rw [ha.2 ell m hl]
      exact c3 ell m h0 (by omega) (abs_le.1 h2).1 (abs_le.1 h2).2
    · rw [← onGrid_modes hE hL ha.1 h0 h1 h2]
      exact t5 ell m (by omega) (abs_le.1 h2).1
  have grid : onGrid L (modesOf T.super) = onGrid L a := onGrid_congr modes
  have errs : l.map Prod.snd = (l.map fun x => match x.2 with | .fin y => y | _ => 0).map Err.fin := by
    rw [List.map_map]
    refine List.map_congr_left fun x hx => ?_
    obtain ⟨e, he⟩ := fin x hx
    simp only [Function.comp, he]
  have least' : ∀ e ∈ (l.map fun x => match x.2 with | .fin y => y | _ => 0), norm4 r L ≤ e := by
    intro e he
    have h1 : Err.fin e ∈ l.map Prod.snd := by
      rw [errs]
      exact List.mem_map_of_mem he
    obtain ⟨j, hj⟩ := List.getElem?_of_mem h1
    exact not_lt.1 (least j _ hj)
  refine ⟨T, l.map fun x => match x.2 with | .fin y => y | _ => 0, r, ?_, c1, c2, fun ell m h0 h1 h2 => c3 ell m h0 h1 (abs_le.1 h2).1 (abs_le.1 h2).2, real_congr ha.1 modes, ?_, ?_⟩
  · rw [hT, errs]
  · rw [grid]
    exact hm
  · rw [← norm4_eq hL]
    refine ⟨List.mem_map.2 ⟨_, List.mem_of_getElem? hi, rfl⟩, least', ?_, ?_⟩
    · rw [List.length_map]
      have := t4.1
      omega
    · rw [List.length_map]
      rcases t4.2.2 with h | ⟨x, hx, hlt⟩
      · left
        omega
      · right
        have hx := List.mem_of_getLast? hx
        obtain ⟨e, he⟩ := fin x hx
        have h1 := least' e (List.mem_map.2 ⟨x, hx, by simp only [he]⟩)
        rw [he] at hlt
        exact lt_of_le_of_lt h1 hlt
/-- The hypotheses are met by data that radiate: the modes at the two times differ. -/
example : ∃ map2salm, Exact map2salm ∧ (1 : Int) ≤ 2 ∧ ({ bumpSeries with data := [bump, fun i => 2 * bump i] } : MTS).ellMax = 2 := by
  obtain ⟨f, hf⟩ := Verif.Props.GridMultiply.exact_exists
  exact ⟨f, hf, by norm_num, rfl⟩

end Verif.Props.SuperrestAny
