import Verif.Model.ComFrame
import Verif.Props.ComFrame
import Verif.Props.Superrest

/-!
# C96: the loop that finds the center-of-mass frame
-/

namespace Verif.Props.ComLoop
open Verif Verif.Spec.ComFrame Verif.Spec.BoostTensor Verif.Spec.FourMomentum Verif.Spec.BondiFrame Verif.Spec.Sphere Verif.AbdTransform Verif.Props.BondiFrame Verif.Props.BoostTensor Verif.Props.ComFrame
  Verif.ComFrame Verif.Spec.Bms Verif.Bms Verif.Lemmas.Bms

/-! ## The modes with `ell ≤ 1` -/

theorem low_shift (f : Vec → ℝ) (τ : ℝ) (a : Vec) (hf : ∀ θ φ, f (fun i => nHat i θ φ) = shift τ a θ φ) (r : Vec) : lowModes f r = τ + (a 0 * r 0 + (a 1 * r 1 + a 2 * r 2)) := by
  have hpi := Real.pi_pos
  have e : ∀ θ φ, ((f (fun i => nHat i θ φ) : ℝ) : ℂ) = field 0 0 1 (modes τ a) θ φ := fun θ φ => by
    rw [hf]
    exact A_shift le_rfl 0 θ φ
  have c0 : (solid fun θ φ => ((f (fun i => nHat i θ φ) * 1 : ℝ) : ℂ)).re = 4 * Real.pi * τ := by
    have : (fun θ φ => ((f (fun i => nHat i θ φ) * 1 : ℝ) : ℂ)) = field 0 0 1 (modes τ a) := by
      funext θ φ
      rw [mul_one, e]
    rw [this, Verif.Supertranslation.solid_field (by norm_num)]
    have m0 : modes τ a 0 0 = ((τ * √(4 * Real.pi) : ℝ) : ℂ) := by simp [modes, Verif.Supertranslation.trans, Verif.Supertranslation.constant, Verif.Supertranslation.chi_ne]
    rw [m0, ← Complex.ofReal_mul, Complex.ofReal_re]
    have := Real.mul_self_sqrt (show (0 : ℝ) ≤ 4 * Real.pi by positivity)
    linear_combination τ * this
  have c1 : ∀ i, (solid fun θ φ => ((f (fun i => nHat i θ φ) * nHat i θ φ : ℝ) : ℂ)).re = 4 * Real.pi / 3 * a i := fun i => by
    have : (solid fun θ φ => ((f (fun i => nHat i θ φ) * nHat i θ φ : ℝ) : ℂ)) = Verif.Balance.pair i (modes τ a) := by
      rw [Verif.Supertranslation.pair_field (b := 1) le_rfl]
      congr 1
      funext θ φ
      rw [Verif.Props.BoostFlux.chi_field, ← e]
      push_cast
      ring
    rw [this]
    obtain ⟨a1, a2, a3, a4, a5, a6, a7, a8, a9⟩ := Verif.Props.BoostFlux.chi_values
    have s1 := Real.mul_self_sqrt (show (0 : ℝ) ≤ 2 * Real.pi / 3 by positivity)
    have s2 := Real.mul_self_sqrt (show (0 : ℝ) ≤ 4 * Real.pi / 3 by positivity)
    generalize √(2 * Real.pi / 3) = x at *
    generalize √(4 * Real.pi / 3) = y at *
    have m1 : modes τ a 1 (-1) = a 0 * x + a 1 * (Complex.I * x) := by simp [modes, Verif.Supertranslation.trans, Verif.Supertranslation.constant, a1, a4, a7]
    have m2 : modes τ a 1 0 = a 2 * y := by simp [modes, Verif.Supertranslation.trans, Verif.Supertranslation.constant, a2, a5, a8]
    have m3 : modes τ a 1 1 = a 0 * -x + a 1 * (Complex.I * x) := by simp [modes, Verif.Supertranslation.trans, Verif.Supertranslation.constant, a3, a6, a9]
    unfold Verif.Balance.pair
    rw [m1, m2, m3]
    fin_cases i
    · show ((starRingEnd ℂ) (Spec.Boost.chi 0 1 (-1)) * _ + (starRingEnd ℂ) (Spec.Boost.chi 0 1 0) * _ + (starRingEnd ℂ) (Spec.Boost.chi 0 1 1) * _).re = 4 * Real.pi / 3 * a 0
      rw [a1, a2, a3]
      simp
      linear_combination (2 * a 0) * s1
    · show ((starRingEnd ℂ) (Spec.Boost.chi 1 1 (-1)) * _ + (starRingEnd ℂ) (Spec.Boost.chi 1 1 0) * _ + (starRingEnd ℂ) (Spec.Boost.chi 1 1 1) * _).re = 4 * Real.pi / 3 * a 1
      rw [a4, a5, a6]
      simp
      linear_combination (2 * a 1) * s1
    · show ((starRingEnd ℂ) (Spec.Boost.chi 2 1 (-1)) * _ + (starRingEnd ℂ) (Spec.Boost.chi 2 1 0) * _ + (starRingEnd ℂ) (Spec.Boost.chi 2 1 1) * _).re = 4 * Real.pi / 3 * a 2
      rw [a7, a8, a9]
      simp
      linear_combination (a 2) * s2
  unfold lowModes
  simp only [c0, c1]
  field_simp

/-! ## Products -/

theorem elem (T : BMS) (ho : T.order = normalOrder ∨ T.order = [.supertranslation, .boost_velocity, .frame_rotation]) (hq : T.q = 1) : element T = toOld T.S.f (boost T.v) := by
  funext p
  unfold element
  have hS : superOf T = T.S.f := by
    funext r
    have : before T.order = [] := by rcases ho with h | h <;> rw [h] <;> rfl
    unfold superOf
    rw [this]
    show (1 : ℝ) * T.S.f ((1 : ℝ)⁻¹ • r) = _
    rw [inv_one, one_smul, one_mul]
  have hL : lorentz T.order T.q T.v = boost T.v := by
    funext X
    rcases ho with h | h <;> rw [h, hq]
    · show boost T.v (rot 1 X) = _
      rw [rot_one]
    · show rot 1 (boost T.v X) = _
      rw [rot_one]
  rw [hS, hL]

/-- The function `a · r`. -/
def lin (a : Vec) (r : Vec) : ℝ := a 0 * r 0 + (a 1 * r 1 + a 2 * r 2)

/-- A transformation that the loop can have: a boost and a translation. -/
structure Rest (T : BMS) (v a : Vec) : Prop where
  valid : Valid T
  order : T.order = normalOrder
  ell : T.ellMax = 12
  q : T.q = 1
  v : T.v = v
  S : ∀ r, Sphere r → T.S.f r = lin a r

theorem toOld_S {S S' : Vec → ℝ} (v : Vec) (hv : dot v v < 1) (h : ∀ r, Sphere r → S r = S' r) (p : Scri) (hp : Sphere p.2) : toOld S (boost v) p = toOld S' (boost v) p := by
  have n : Nice (boost v) := by
    have := nice_act 1 (by simp) v hv
    have e : act 1 v = boost v := by
      funext X
      unfold act
      rw [rot_one]
    rwa [e] at this
  exact toOld_congr n h (fun _ => rfl) p hp

theorem pin (T : BMS) (hT : Valid T) (ho : T.order = normalOrder) (he : T.ellMax = 12) (v a : Vec) (hv : dot v v < 1) (h : ∀ p : Scri, Sphere p.2 → element T p = toOld (lin a) (boost v) p) : Rest T v a := by
  obtain ⟨B, e1, e2, e3, e4, e5, e6, -⟩ := Verif.Props.Bms.init_valid none (some v) (some { ell := 1, f := lin a }) normalOrder normal_mem 12 (by norm_num) (fun _ h => by cases h; norm_num) (fun p h => by cases h)
    (fun _ h => by cases h; exact hv)
  have e3 : B.q = 1 := e3
  have e4 : B.v = v := e4
  have e5 : B.S.f = lin a := e5
  obtain ⟨d1, d2, d3⟩ := Verif.Props.Bms.element_determines T B hT e2 (by rw [ho, e6]) fun p hp => by rw [h p hp, elem B (Or.inl e6) e3, e4, e5]
  rw [superOf_normal T ho, superOf_normal B e6, e5] at d3
  refine ⟨hT, ho, he, ?_, by rw [d2, e4], d3⟩
  rcases d1 with d | d
  · rw [d, e3]
  · rw [e3] at d
    exact absurd d hT.1.2

theorem Rest.clean {T : BMS} {v a : Vec} (h : Rest T v a) : Rest (clean T) v a := by
  have hs : ∀ θ φ, T.S.f (fun i => nHat i θ φ) = shift 0 a θ φ := fun θ φ => by
    rw [h.S]
    · unfold lin shift
      rw [zero_add]
    · unfold Sphere dot
      rw [Fin.sum_univ_three]
      show Real.sin θ * Real.cos φ * (Real.sin θ * Real.cos φ) + Real.sin θ * Real.sin φ * (Real.sin θ * Real.sin φ) + Real.cos θ * Real.cos θ = 1
      have := Real.sin_sq_add_cos_sq θ
      have := Real.sin_sq_add_cos_sq φ
      linear_combination (Real.sin θ) ^ 2 * this + (Real.sin_sq_add_cos_sq θ)
  have hv := h.valid
  refine ⟨⟨?_, hv.2.1, hv.2.2.1, hv.2.2.2.1, hv.2.2.2.2⟩, h.order, h.ell, rfl, h.v, fun r _ => ?_⟩
  · show Rotor 1
    rw [← h.q]
    exact hv.1
  · show lowModes T.S.f r = _
    rw [low_shift _ 0 a hs r, zero_add]
    rfl

theorem Rest.frame {T : BMS} {v a : Vec} (h : Rest T v a) (F : Fin 6 → Field) : frameOf T F = moved (v 2) (shift 0 a) F := by
  unfold frameOf
  rw [h.v]
  congr 1
  funext θ φ
  rw [h.S]
  · unfold lin shift
    rw [zero_add]
  · unfold Sphere dot
    rw [Fin.sum_univ_three]
    show Real.sin θ * Real.cos φ * (Real.sin θ * Real.cos φ) + Real.sin θ * Real.sin φ * (Real.sin θ * Real.sin φ) + Real.cos θ * Real.cos θ = 1
    have := Real.sin_sq_add_cos_sq φ
    linear_combination (Real.sin θ) ^ 2 * this + (Real.sin_sq_add_cos_sq θ)

theorem boost_zero_old (S : Vec → ℝ) (p : Scri) : toOld S (boost 0) p = (p.1 + S p.2, p.2) := by
  unfold toOld
  simp only [boost_zero]
  show (p.1 / 1 + S ((1 : ℝ)⁻¹ • p.2), (1 : ℝ)⁻¹ • p.2) = _
  rw [inv_one, one_smul, div_one]

/-- The product of a new transformation and the one before it. -/
theorem product (ext : Ext) (he : SvdOk ext) (C : BMS) (v a x w : Vec) (hC : Rest C v a) (hw : dot w w < 1) (hcase : (v = 0 ∧ a = 0) ∨ (w = 0 ∧ dot x v = 0)) (t : List ℝ) (t1 t2 : ℝ) (ht1 : t1 ∈ t) (ht2 : t2 ∈ t) (ht : t1 ≠ t2) :
    ∃ N M T, Superrest.transformationFromCom (fun i => t.map fun s => x i + w i * s) t = .ok N ∧ N.mul ext C = .ok M ∧ M.reorder ext normalOrder = .ok T ∧ Rest T (v + w) (a - x) := by
  have hfit : ∀ i, Superrest.polyfit t (t.map fun s => x i + w i * s) = (w i, x i) := fun i => Verif.Props.Superrest.polyfit_exact t t1 t2 ht1 ht2 ht (x i) (w i)
  obtain ⟨N, e1, e2, e3, e4, e5, e6, e7⟩ := Verif.Props.Bms.init_valid none (some w) (some { ell := 1, f := fun r => -(x 0 * r 0 + x 1 * r 1 + x 2 * r 2) }) [.supertranslation, .boost_velocity, .frame_rotation]
    (by simp [orders]) 12 (by norm_num) (fun _ h => by cases h; norm_num) (fun p h => by cases h) (fun _ h => by cases h; exact hw)
  have e3 : N.q = 1 := e3
  have e4 : N.v = w := e4
  have e5 : N.S.f = fun r => -(x 0 * r 0 + x 1 * r 1 + x 2 * r 2) := e5
  obtain ⟨M, f1, f2, f3, f4, f5⟩ := Verif.Props.Bms.mul_composes ext he N C e2 hC.valid (Or.inl (by rw [e7])) (Or.inl (by rw [hC.ell]))
  obtain ⟨T, g1, g2, g3, g4, g5⟩ := Verif.Props.Bms.reorder_preserves_element_partial ext he M f2 normalOrder normal_mem (Or.inl (by rw [f4, e7, hC.ell, max_self]))
  have hv : dot v v < 1 := by rw [← hC.v]; exact hC.valid.2.1
  refine ⟨N, M, T, ?_, f1, g1, pin T g2 g3 (by rw [g4, f4, e7, hC.ell, max_self]) _ _ ?_ fun p hp => ?_⟩
  · unfold Superrest.transformationFromCom
    simp only [hfit]
    exact e1
  · rcases hcase with ⟨h, -⟩ | ⟨h, -⟩
    · rw [h, zero_add]
      exact hw
    · rw [h, add_zero]
      exact hv
  · rw [g5 p hp, f5 p hp]
    have hp' := Verif.Props.Bms.element_sphere N e2 p hp
    rw [elem C (Or.inl hC.order) hC.q, hC.v, toOld_S v hv hC.S _ hp', elem N (Or.inr e6) e3, e4, e5]
    rcases hcase with ⟨h, h'⟩ | ⟨h, h'⟩
    · subst h h'
      rw [boost_zero_old, zero_add, zero_sub]
      unfold toOld lin
      simp
      ring
    · subst h
      rw [boost_zero_old, add_zero]
      unfold toOld
      simp only
      obtain ⟨X, hX⟩ : ∃ X, X = boost v (null p.2) := ⟨_, rfl⟩
      have hX2 : X.2 = p.2 + (gam v ^ 2 / (gam v + 1) * dot v p.2 + gam v * 1) • v := by rw [hX]; rfl
      rw [← hX]
      generalize gam v ^ 2 / (gam v + 1) * dot v p.2 + gam v * 1 = k at hX2
      refine Prod.ext ?_ rfl
      have hd : ∀ i, dir X i = X.1⁻¹ * X.2 i := fun _ => rfl
      have hc : ∀ i, X.2 i = p.2 i + k * v i := fun i => by rw [hX2]; rfl
      unfold dot at h'
      rw [Fin.sum_univ_three] at h'
      simp only [lin, hd, hc, Pi.sub_apply]
      rw [div_eq_mul_inv, div_eq_mul_inv]
      linear_combination (X.1⁻¹ * k) * h'

/-! ## The loop -/

/-- What is used of the times of the transformed data and of the mean value over them: there are two different times, and the mean of a constant is the constant. -/
structure Good (times : BMS → List ℝ) (mean : List ℝ → List ℝ → ℝ) : Prop where
  two : ∀ T, ∃ a ∈ times T, ∃ b ∈ times T, a ≠ b
  const : ∀ (T : BMS) (c : ℝ), mean ((times T).map fun _ => c) (times T) = c

theorem pass_eq (ext : Ext) (he : SvdOk ext) {times : BMS → List ℝ} {mean : List ℝ → List ℝ → ℝ} (hg : Good times mean) (t0 : List ℝ) (F : Fin 6 → Field) (itr : Nat) (C : BMS) (g : Option Charge)
    (v a x w : Vec) (hC : Rest C v a) (hw : dot w w < 1) (hcase : (v = 0 ∧ a = 0) ∨ (w = 0 ∧ dot x v = 0)) (t : List ℝ) (t1 t2 : ℝ) (ht1 : t1 ∈ t) (ht2 : t2 ∈ t) (ht : t1 ≠ t2)
    (hgc : current t0 F itr g = .ok { G := fun i => t.map fun s => x i + w i * s, t := t })
    (y : Vec) (hy : ∀ u, place (moved ((v + w) 2) (shift 0 (a - x)) F) u = y) :
    ∃ T, Rest T (v + w) (a - x) ∧ pass ext times mean t0 F itr (C, g) = .ok ((T, some { G := fun i => (times T).map fun s => y i + (0 : Vec) i * s, t := times T }), .fin (vabs y)) := by
  obtain ⟨N, M, T, e1, e2, e3, e4⟩ := product ext he C v a x w hC hw hcase t t1 t2 ht1 ht2 ht
  refine ⟨ComFrame.clean T, e4.clean, ?_⟩
  have hF := e4.clean.frame F
  unfold ComFrame.pass
  rw [hgc, ok_bind]
  simp only [e1, ok_bind]
  rw [e2, ok_bind, e3, ok_bind, pure_eq_ok]
  simp only [hF, hy, charge, hg.const, Pi.zero_apply, zero_mul, add_zero]

variable {beta : ℝ} {F : Fin 6 → Field} {L : Int} {p1 p2 s : Int → Int → ℂ}

/-- C96: for data without news and with a momentum along the `z` axis, the loop needs at most two passes.  The error after the first pass is the distance `d` between the origin and the center of mass, which the boost has
moved away from the origin; if it is not below the tolerance, the second pass puts the center of mass to rest at the origin, at all times. -/
theorem converges (hL : 1 ≤ L) (hb : 0 ≤ beta) (hb1 : beta < 1) (h : Static L p1 p2 s F) (u : ℝ) (h0 : total F u 0 ≠ 0) (h1 : total F u 1 = 0) (h2 : total F u 2 = 0) (h3 : total F u 3 = beta * total F u 0)
    (ext : Ext) (he : SvdOk ext) (times : BMS → List ℝ) (mean : List ℝ → List ℝ → ℝ) (hg : Good times mean) (t0 : List ℝ) (t1 t2 : ℝ) (ht1 : t1 ∈ t0) (ht2 : t2 ∈ t0) (ht : t1 ≠ t2)
    (N : Int) (hN : 2 ≤ N) (tol : ℝ) (htol : 0 < tol) (d : ℝ) (hd : d = vabs (offset beta (Spec.BoostTensor.boost F u) (angular F u) (total F u 0))) :
    ∃ T errs, com ext times mean t0 F N tol = .ok (T, errs) ∧ T.q = 1 ∧ T.v = ![0, 0, beta] ∧
      (∀ u', total (frameOf T F) u' = ![total F u 0 / gamma beta, 0, 0, 0] ∧ vabs (place (frameOf T F) u') < tol) ∧
      (d < tol ∧ errs = [.inf, .fin d] ∨ tol ≤ d ∧ errs = [.inf, .fin d, .fin 0] ∧ ∀ u' i, place (frameOf T F) u' i = 0) := by
  obtain ⟨E, hE⟩ : ∃ E, E = total F u 0 := ⟨_, rfl⟩
  obtain ⟨x, hx⟩ : ∃ x : Vec, x = fun i => Spec.BoostTensor.boost F u i / total F u 0 := ⟨_, rfl⟩
  obtain ⟨y, hy⟩ : ∃ y : Vec, y = offset beta (Spec.BoostTensor.boost F u) (angular F u) (total F u 0) := ⟨_, rfl⟩
  obtain ⟨w, hw⟩ : ∃ w : Vec, w = ![0, 0, beta] := ⟨_, rfl⟩
  have hw2 : w 2 = beta := by rw [hw]; rfl
  have hww : dot w w < 1 := by
    rw [hw]
    simp [dot, Fin.sum_univ_three]
    nlinarith
  have o := fun u' => one_pass hL hb hb1 h u h0 h1 h2 h3 u'
  have p := fun u' => two_passes hL hb hb1 h u h0 h1 h2 h3 u'
  rw [← hy] at p hd
  -- the first transformation
  obtain ⟨one, i1, i2, i3, i4, i5, i6, i7⟩ := Verif.Props.Bms.init_valid none none none normalOrder normal_mem 12 (by norm_num) (fun _ h => by cases h) (fun _ h => by cases h) (fun _ h => by cases h)
  have r0 : Rest one 0 0 := ⟨i2, i6, i7, i3, i4, fun r _ => by rw [i5]; simp [lin]⟩
  have m1 : (fun i => -(Spec.BoostTensor.boost F u i / total F u 0)) = (0 - x : Vec) := by rw [hx]; funext i; simp
  have m2 : (fun i => -(Spec.BoostTensor.boost F u i / total F u 0) - y i) = (0 - x - y : Vec) := by rw [← m1]; rfl
  obtain ⟨T1, a1, a2⟩ := pass_eq ext he hg t0 F 0 one none 0 0 x w r0 hww (Or.inl ⟨rfl, rfl⟩) t0 t1 t2 ht1 ht2 ht (by
    unfold current
    rw [if_pos rfl]
    unfold charge
    congr 2
    funext i
    congr 1
    funext s
    rw [(o s).1, hx, hw]) y (fun u' => by
    rw [zero_add, hw2, ← m1, hy]
    exact (o u').2.1)
  have f1 : frameOf T1 F = moved beta (shift 0 (0 - x)) F := by rw [a1.frame, zero_add, hw2]
  have q1 : ∀ u', total (frameOf T1 F) u' = ![total F u 0 / gamma beta, 0, 0, 0] ∧ place (frameOf T1 F) u' = y := fun u' => by
    rw [f1, ← m1, hy]
    exact ⟨(o u').2.2, (o u').2.1⟩
  obtain ⟨n, hn⟩ : ∃ n : Nat, N.toNat = n + 2 := ⟨N.toNat - 2, by omega⟩
  have c0 : ComFrame.com ext times mean t0 F N tol = SuperrestLoop.run (ComFrame.pass ext times mean t0 F) Prod.fst N (.fin tol) (one, none) one := by
    unfold ComFrame.com
    have : bmsInit none none none = .ok one := i1
    rw [this, ok_bind]
  have lt0 : ∀ e, SuperrestLoop.Err.lt .inf e = False := fun e => by cases e <;> rfl
  rw [c0]
  unfold SuperrestLoop.run
  rw [hn, SuperrestLoop.iterate, if_pos ⟨by simp, by rw [lt0]; simp⟩]
  simp only
  rw [a2, ok_bind]
  simp only
  by_cases hlt : d < tol
  · refine ⟨T1, [.inf, .fin d], ?_, a1.q, by rw [a1.v, zero_add, hw], fun u' => ⟨(q1 u').1, by rw [(q1 u').2, ← hd]; exact hlt⟩, Or.inl ⟨hlt, rfl⟩⟩
    rw [← hd, SuperrestLoop.iterate, if_neg (fun hc => hc.2 hlt), ok_bind, pure_eq_ok]
    have : SuperrestLoop.Err.lt (.fin d) (SuperrestLoop.pyMin [.inf]) := trivial
    simp only [if_pos this]
    rfl
  · have hge : tol ≤ d := not_lt.1 hlt
    obtain ⟨ta, hta, tb, htb, hab⟩ := hg.two T1
    have hy2 : y 2 = 0 := by rw [hy]; rfl
    obtain ⟨T2, b1, b2⟩ := pass_eq ext he hg t0 F 1 T1 (some { G := fun i => (times T1).map fun s => y i + (0 : Vec) i * s, t := times T1 }) (0 + w) (0 - x) y 0 a1 (by simp [dot]) (Or.inr ⟨rfl, by
      rw [zero_add, hw]
      simp [dot, Fin.sum_univ_three, hy2]⟩) (times T1) ta tb hta htb hab (by unfold current; rw [if_neg (by norm_num)]) 0 (fun u' => by
      rw [zero_add, add_zero, hw2, ← m2]
      exact (p u').1)
    have f2 : frameOf T2 F = moved beta (shift 0 (0 - x - y)) F := by rw [b1.frame, zero_add, add_zero, hw2]
    have q2 : ∀ u', total (frameOf T2 F) u' = ![total F u 0 / gamma beta, 0, 0, 0] ∧ place (frameOf T2 F) u' = 0 := fun u' => by
      rw [f2, ← m2]
      exact ⟨(p u').2, (p u').1⟩
    have v0 : vabs 0 = 0 := by simp [vabs]
    refine ⟨T2, [.inf, .fin d, .fin 0], ?_, b1.q, by rw [b1.v, zero_add, add_zero, hw], fun u' => ⟨(q2 u').1, by rw [(q2 u').2, v0]; exact htol⟩, Or.inr ⟨hge, rfl, fun u' i => by rw [(q2 u').2]; rfl⟩⟩
    rw [← hd, SuperrestLoop.iterate, if_pos ⟨by simp, fun hc => hlt hc⟩]
    simp only
    rw [b2, ok_bind, v0]
    simp only
    have k1 : SuperrestLoop.Err.lt (.fin d) (SuperrestLoop.pyMin [.inf]) := trivial
    have k2 : SuperrestLoop.pyMin ([.inf] ++ [.fin d]) = .fin d := by
      show (if SuperrestLoop.Err.lt (.fin d) .inf then _ else _) = _
      exact if_pos trivial
    have k3 : SuperrestLoop.Err.lt (.fin 0) (.fin d) := lt_of_lt_of_le htol hge
    rw [k2]
    simp only [if_pos k3]
    have stop : ∀ (m n : Nat) (st : SuperrestLoop.St (BMS × Option Charge) BMS), st.err = .fin 0 → SuperrestLoop.iterate (ComFrame.pass ext times mean t0 F) Prod.fst n (.fin tol) m st = .ok st := fun m n st hs => by
      cases m with
      | zero => rfl
      | succ m =>
        rw [SuperrestLoop.iterate, if_neg]
        rintro ⟨-, hc⟩
        rw [hs] at hc
        exact hc htol
    rw [stop _ _ _ rfl, ok_bind, pure_eq_ok]
    rfl

/-- The moving and rotating mass: the second pass is needed. -/
example (ext : Ext) (he : SvdOk ext) : ∃ T, com ext (fun _ => [0, 1]) (fun l _ => l.headD 0) [0, 1] top 10 (1 / 1000) = .ok (T, [.inf, .fin (15 / 16), .fin 0]) ∧ ∀ u i, place (frameOf T top) u i = 0 := by
  have hs := moving_static (-1) ![0, 0, -(9 / 5)] fun ell m => -3 * Complex.I * Spec.Boost.chi 0 ell m
  obtain ⟨t, b, j⟩ := top_charges 0
  have hg := gamma_sq (beta := 3 / 5) (by norm_num) (by norm_num)
  have hd : vabs (offset (3 / 5) (Spec.BoostTensor.boost top 0) (angular top 0) (total top 0 0)) = 15 / 16 := by
    rw [t, b, j]
    have : offset (3 / 5) 0 ![1, 0, 0] ((![1, 0, 0, 3 / 5] : Fin 4 → ℝ) 0) = ![0, -(15 / 16), 0] := by
      unfold offset
      funext i
      fin_cases i
      · simp
      · simp
        linarith
      · rfl
    rw [this]
    unfold vabs
    rw [show (![(0 : ℝ), -(15 / 16), 0] 0 ^ 2 + ![(0 : ℝ), -(15 / 16), 0] 1 ^ 2 + ![(0 : ℝ), -(15 / 16), 0] 2 ^ 2) = (15 / 16) ^ 2 by
      show (0 : ℝ) ^ 2 + (-(15 / 16)) ^ 2 + 0 ^ 2 = (15 / 16) ^ 2
      norm_num]
    exact Real.sqrt_sq (by norm_num)
  obtain ⟨T, errs, h1, -, -, -, h5⟩ := converges (F := top) le_rfl (beta := 3 / 5) (by norm_num) (by norm_num) hs 0 (by rw [t]; norm_num) (by rw [t]; rfl) (by rw [t]; rfl) (by rw [t]; show (3 / 5 : ℝ) = 3 / 5 * 1; norm_num) ext he (fun _ => [0, 1])
    (fun l _ => l.headD 0) ⟨fun _ => ⟨0, by simp, 1, by simp, by norm_num⟩, fun _ c => rfl⟩ [0, 1] 0 1 (by simp) (by simp) (by norm_num) 10 (by norm_num) (1 / 1000) (by norm_num) _ rfl
  rw [hd] at h5
  rcases h5 with ⟨h, -⟩ | ⟨-, rfl, h⟩
  · norm_num at h
  · exact ⟨T, h1, h⟩

end Verif.Props.ComLoop
