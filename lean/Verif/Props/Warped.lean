import Verif.Spec.Warped
import Verif.Props.Displaced

/-!
# C107: what `map_to_superrest_frame` does to an object seen from a supertranslated frame
-/

namespace Verif.Props.Warped
open Verif Verif.Charges Verif.Modes Verif.SuperrestLoop Verif.FrameErrors Verif.SuperrestMap Verif.Spec.SuperrestMap Verif.Spec.FrameErrors Verif.Spec.AbdFrame Verif.Spec.Moreschi Verif.Spec.SuperrestLoop
  Verif.Props.FrameErrors Verif.GridMultiply.Spec Verif.Spec.TiltedSpin Verif.Spec.ChargeCov Verif.Props.SuperrestMap Verif.Props.TiltedSpin Verif.Spec.Supertranslation Verif.Props.Displaced
open Verif.Spec.Displaced (move superOf Quiet Placed Room Displaced Frames)
open Verif.Spec.Warped (warp High Bounded Seen Ample Warps)
open Verif.Spec.Rotation (UnitRotor rot)
open Verif.Spec.Bms (Rotor)
open Verif.Spec.Balance (IsProduct)
open Verif.AbdTransform (rotateVec)

variable {c : Calls} {a a' : Data} {q : Quaternion ℝ} {s : ℝ} {x y n : Fin 3 → ℝ} {L : Int} {A β γ δ : Modes}

/-! ## The transformations -/

theorem warp_high (A : Modes) (s : ℝ) (y : Fin 3 → ℝ) (q : Quaternion ℝ) {ell m : Int} (he : 2 ≤ ell) (hl : ell ≤ L) (hm : |m| ≤ ell) : superOf (warp L A s y q) ell m = A ell m := by
  have hm' := abs_le.1 hm
  have h4 : 4 ≤ ell * (ell + 1) + m := by nlinarith
  unfold superOf warp
  simp only
  rw [if_neg (by omega)]
  unfold cut
  rw [if_pos ⟨by omega, by nlinarith⟩]
  unfold Cwwy.rowOf
  have e := Verif.Lemmas.Superrest.sqrt_index ell m (show Verif.Spec.Superrest.IsMode ell m from hm')
  unfold lmIndex at e
  rw [show ell * (ell + 1) - 0 ^ 2 + m = ell * (ell + 1) + m by ring] at e
  rw [e]
  congr 1
  ring

theorem warp_low (A : Modes) (s : ℝ) (y : Fin 3 → ℝ) (q : Quaternion ℝ) {ell m : Int} (h0 : 0 ≤ ell) (he : ell < 2) (hm : |m| ≤ ell) : superOf (warp L A s y q) ell m = superOf (move s y q) ell m := by
  have hm' := abs_le.1 hm
  have h4 : ell * (ell + 1) + m < 4 := by nlinarith
  unfold superOf warp
  simp only
  rw [if_pos h4]

/-- The function of a supertranslation is the sum of that of the translation and the rest. -/
theorem warp_sum (hA : ∀ ell m, ell < 2 → A ell m = 0) (s : ℝ) (y : Fin 3 → ℝ) (q : Quaternion ℝ) {ell m : Int} (h0 : 0 ≤ ell) (hl : ell ≤ L) (hm : |m| ≤ ell) :
    superOf (warp L A s y q) ell m = A ell m + superOf (move s y q) ell m := by
  by_cases he : 2 ≤ ell
  · rw [warp_high A s y q he hl hm, super_high s y q ell m he hm, add_zero]
  · rw [warp_low A s y q h0 (by omega) hm, hA ell m (by omega), zero_add]

/-! ## Two supertranslations -/

open Verif.GridMultiply Verif.Spec.Sphere Verif.Spec.Boost Verif.Balance Verif.Props.SphereOps Verif.Triple ComplexConjugate in
/-- Two supertranslations in a row are the one by the sum. -/
theorem super_add {b : Int} (hb : 1 ≤ b) {p d e : Abd} (h1 : Supertranslated b β p d) (h2 : Supertranslated b γ d e) (hs : ∀ ell m, 0 ≤ ell → ell ≤ b → |m| ≤ ell → δ ell m = β ell m + γ ell m) : Supertranslated b δ p e := by
  refine ⟨h2.news, fun ell m k2 kb km => ?_, fun ell m k0 kb km => ?_, fun m hm => ?_⟩
  · rw [h2.sigma ell m k2 kb km, h1.sigma ell m k2 kb km]
    unfold ethGHP
    rw [hs ell m (by omega) kb km]
    ring
  · rw [h2.psi2 ell m k0 kb km, h1.psi2 ell m k0 kb km]
  · have f2 : ∀ θ φ, field 0 0 b d.psi2 θ φ = field 0 0 b p.psi2 θ φ := fun θ φ => field_congr _ _ _ _ _ θ φ fun ell m k1 k2 k3 k4 => by rw [h1.psi2 ell m k1 k2 (abs_le.2 ⟨k3, k4⟩)]
    have fe : ∀ θ φ, field 1 0 b (ethGHP 0 d.psi2) θ φ = field 1 0 b (ethGHP 0 p.psi2) θ φ := fun θ φ => field_congr _ _ _ _ _ θ φ fun ell m k1 k2 k3 k4 => by
      unfold ethGHP
      rw [h1.psi2 ell m k1 k2 (abs_le.2 ⟨k3, k4⟩)]
    have fd : ∀ θ φ, field 0 0 b δ θ φ = field 0 0 b β θ φ + field 0 0 b γ θ φ := fun θ φ => by
      rw [← Verif.Props.AngMomIntegral.field_sum]
      exact field_congr _ _ _ _ _ θ φ fun ell m k1 k2 k3 k4 => by rw [hs ell m k1 k2 (abs_le.2 ⟨k3, k4⟩)]
    have fde : ∀ θ φ, field 1 0 b (ethGHP 0 δ) θ φ = field 1 0 b (ethGHP 0 β) θ φ + field 1 0 b (ethGHP 0 γ) θ φ := fun θ φ => by
      rw [← Verif.Props.AngMomIntegral.field_sum]
      exact field_congr _ _ _ _ _ θ φ fun ell m k1 k2 k3 k4 => by
        unfold ethGHP
        rw [hs ell m k1 k2 (abs_le.2 ⟨k3, k4⟩)]
        ring
    have hm' := abs_le.1 hm
    have cY : C fun θ φ => conj (Y 1 1 m (rotor θ φ)) := (Y_C 1 1 m hm'.1 hm'.2).conj
    have cre : ∀ (f : Modes) (k l : ℝ), C fun θ φ => ((k + (field 0 0 b f θ φ).re - l : ℝ) : ℂ) := fun f k l =>
      Complex.continuous_ofReal.comp (((continuous_const).add (Complex.continuous_re.comp (C.field 0 0 b f))).sub continuous_const)
    have cG : ∀ (f g : Modes) (k l : ℝ), C fun θ φ => conj (Y 1 1 m (rotor θ φ)) * (((k + (field 0 0 b f θ φ).re - l : ℝ) : ℂ) * field 1 0 b (ethGHP 0 g) θ φ + 3 * (field 1 0 b (ethGHP 0 f) θ φ * field 0 0 b g θ φ)) := fun f g k l =>
      cY.mul (((cre f k l).mul (C.field _ _ _ _)).add (((C.field _ _ _ _).mul (C.field _ _ _ _)).const 3))
    have cP : ∀ f : Modes, C fun θ φ => conj (Y 1 1 m (rotor θ φ)) * field 1 0 b f θ φ := fun f => cY.mul (C.field _ _ _ _)
    have split : ∀ (f : Modes) (d0 : Abd) (k : ℝ), (solid fun θ φ => conj (Y 1 1 m (rotor θ φ)) * (psi1At b d0 (k + (field 0 0 b f θ φ).re) θ φ + 3 * field 1 0 b (ethGHP 0 f) θ φ * field 0 0 b d0.psi2 θ φ)) =
        d0.psi1 1 m + solid fun θ φ => conj (Y 1 1 m (rotor θ φ)) * (((k + (field 0 0 b f θ φ).re - d0.t : ℝ) : ℂ) * field 1 0 b (ethGHP 0 d0.psi2) θ φ + 3 * (field 1 0 b (ethGHP 0 f) θ φ * field 0 0 b d0.psi2 θ φ)) := by
      intro f d0 k
      rw [← Verif.Supertranslation.mode_of 1 b 1 m d0.psi1 (by norm_num) hb hm, ← solid_add (cP _) (cG _ _ _ _)]
      congr 1
      funext θ φ
      unfold psi1At
      ring
    rw [h2.psi1 m hm, split γ d, h1.psi1 m hm, split β p, split δ p, add_assoc, ← solid_add (cG _ _ _ _) (cG _ _ _ _)]
    congr 2
    funext θ φ
    rw [f2, fe, fd, fde, Complex.add_re]
    push_cast
    ring

/-- Supertranslations do not change the four-momentum. -/
theorem super_momentum {b : Int} (hb : 1 ≤ b) {mul : Int → Int → Modes → Modes → Modes} (hmul : IsProduct b mul) {p d : Abd} (hp : ∀ ell m, p.sigmaDot ell m = 0) (h : Supertranslated b β p d) (dflt : Int) :
    bondiFourMomentum mul dflt d = bondiFourMomentum mul dflt p := by
  obtain ⟨u, u1, u2, u3⟩ := Verif.Props.Cwwy.momentum_eq hmul hp dflt
  obtain ⟨v, v1, v2, v3⟩ := Verif.Props.Cwwy.momentum_eq hmul h.news dflt
  have e : v = u := by
    funext k
    refine Fin.cases ?_ (fun k => ?_) k
    · rw [u2, v2, h.psi2 0 0 le_rfl (by omega) (by norm_num)]
    · rw [u3, v3, Verif.Props.Cwwy.pair_congr k fun m hm => h.psi2 1 m (by norm_num) hb hm]
  rw [u1, v1, e]

/-! ## The solver for the supertranslation -/

theorem sign_two (m : Int) : ((-1 : ℂ)) ^ (2 + m).natAbs = (-1) ^ m.natAbs := by
  rcases Int.even_or_odd m with h | h
  · rw [Even.neg_one_pow (Int.natAbs_even.2 h), Even.neg_one_pow (Int.natAbs_even.2 (by simpa using (even_two (α := Int)).add h))]
  · rw [Odd.neg_one_pow (Int.natAbs_odd.2 h), Odd.neg_one_pow (Int.natAbs_odd.2 ((even_two (α := Int)).add_odd h))]

/-- For a real function, `ð²` of the complex conjugate of `ð²A` is `𝔇A`. -/
theorem D_real (hA : RealFunction L A) {ell m : Int} (h2 : 2 ≤ ell) (hl : ell ≤ L) (hm : |m| ≤ ell) :
    ethGHP (-1) (ethGHP (-2) (bar 2 (ethGHP 1 (ethGHP 0 A)))) ell m = Superrest.factorD ell * A ell m := by
  have r := hA ell m (by omega) hl hm
  have sg : ((-1 : ℂ)) ^ m.natAbs * (-1) ^ m.natAbs = 1 := by rw [← mul_pow]; norm_num
  unfold bar ethGHP Superrest.factorD
  rw [if_neg (by omega)]
  beta_reduce
  rw [r, sign_two]
  have hx : (ell : ℂ) = ((ell : ℝ) : ℂ) := by norm_cast
  have h2' : (2 : ℝ) ≤ ell := by exact_mod_cast h2
  simp only [map_mul, map_pow, map_neg, map_one, Complex.conj_ofReal, Complex.conj_conj]
  push_cast
  rw [hx]
  generalize (ell : ℝ) = x at *
  rw [show (x - -1) * (x + -1 + 1) / 2 = x * (x + 1) / 2 by ring, show (x - -2) * (x + -2 + 1) / 2 = (x + 2) * (x - 1) / 2 by ring,
    show (x - 1) * (x + 1 + 1) / 2 = (x + 2) * (x - 1) / 2 by ring, show (x - 0) * (x + 0 + 1) / 2 = x * (x + 1) / 2 by ring]
  have e1 : ((√(x * (x + 1) / 2) : ℝ) : ℂ) * ((√(x * (x + 1) / 2) : ℝ) : ℂ) = x * (x + 1) / 2 := by
    rw [← Complex.ofReal_mul, Real.mul_self_sqrt (by nlinarith)]; push_cast; ring
  have e2 : ((√((x + 2) * (x - 1) / 2) : ℝ) : ℂ) * ((√((x + 2) * (x - 1) / 2) : ℝ) : ℂ) = (x + 2) * (x - 1) / 2 := by
    rw [← Complex.ofReal_mul, Real.mul_self_sqrt (by nlinarith)]; push_cast; ring
  generalize ((√(x * (x + 1) / 2) : ℝ) : ℂ) = u at *
  generalize ((√((x + 2) * (x - 1) / 2) : ℝ) : ℂ) = v at *
  generalize ((-1 : ℂ)) ^ m.natAbs = e at *
  linear_combination (u * u * (v * v) * A ell m) * sg + (v * v * A ell m) * e1 + (x * (x + 1) / 2 * A ell m) * e2

/-- Supertranslations do not make radiation. -/
theorem super_quiet {b : Int} {p d : Abd} (hp : Nonradiative b p) (hβ : RealFunction b β) (h : Supertranslated b β p d) : Nonradiative b d := by
  refine ⟨h.news, ?_⟩
  have e : ∀ ell m, 0 ≤ ell → ell ≤ b → |m| ≤ ell → d.psi2 ell m + ethGHP (-1) (ethGHP (-2) (bar 2 d.sigma)) ell m = p.psi2 ell m + ethGHP (-1) (ethGHP (-2) (bar 2 p.sigma)) ell m - Superrest.factorD ell * β ell m := by
    intro ell m h0 hl hm
    rw [h.psi2 ell m h0 hl hm]
    by_cases h2 : 2 ≤ ell
    · have e := D_real hβ h2 hl hm
      rw [← e]
      unfold ethGHP bar
      beta_reduce
      rw [h.sigma ell (-m) h2 hl (by rwa [abs_neg]), map_sub]
      unfold ethGHP
      ring
    · have z' : ∀ g : Modes, ethGHP (-1) (ethGHP (-2) g) ell m = 0 := by
        intro g
        show _ * ethGHP (-2) g ell m = 0
        rw [eth_low g ell m h0 (by omega), mul_zero]
      rw [z', z', Verif.Props.Moreschi.factorD_low (by omega), zero_mul, sub_zero]
  intro ell m h0 hl hm
  have r := hp.real ell m h0 hl hm
  have hm' : |(-m)| ≤ ell := by rwa [abs_neg]
  have r : (-1 : ℂ) ^ (0 + m).natAbs * (starRingEnd ℂ) (p.psi2 ell (-m) + ethGHP (-1) (ethGHP (-2) (bar 2 p.sigma)) ell (-m)) = p.psi2 ell m + ethGHP (-1) (ethGHP (-2) (bar 2 p.sigma)) ell m := r
  have sg : ((-1 : ℂ)) ^ m.natAbs * (-1) ^ m.natAbs = 1 := by rw [← mul_pow]; norm_num
  show (-1 : ℂ) ^ (0 + m).natAbs * (starRingEnd ℂ) (d.psi2 ell (-m) + ethGHP (-1) (ethGHP (-2) (bar 2 d.sigma)) ell (-m)) = d.psi2 ell m + ethGHP (-1) (ethGHP (-2) (bar 2 d.sigma)) ell m
  rw [e ell m h0 hl hm, e ell (-m) h0 hl hm', map_sub, mul_sub, r, hβ ell m h0 hl hm, map_mul, Verif.Props.Moreschi.factorD_conj, map_mul, map_pow, map_neg, map_one, Complex.conj_conj, zero_add]
  linear_combination (-(Superrest.factorD ell * β ell m)) * sg

theorem warp_found (hE : Verif.GridMultiply.Spec.Exact c.map2salm) (hs : ConstSpline c.spline) (hp : Spec.FrameErrors.Proper c.toExt a) {f : Modes} (h : Stationary c.toExt a f)
    (h2 : ∀ ell m, 2 ≤ ell → ell ≤ a.ellMax → |m| ≤ ell → f ell m = -(Superrest.factorD ell * β ell m)) {N : Int} (hN : 0 < N) {x : ℝ} (hx : 0 < x) :
    SuperrestMap.supertranslation c N (.fin x) a = .ok (warp a.ellMax (fun ell m => -β ell m) 0 0 1) := by
  have hC : Constant { s := 0, ellMax := a.ellMax, t := times a, data := List.replicate (times a).length (cut a.ellMax (Cwwy.rowOf f)) } a.ellMax (cut a.ellMax (Cwwy.rowOf f)) :=
    ⟨rfl, rfl, by show 2 ≤ (times a).length; unfold times; rw [List.length_map]; exact hp.two⟩
  have hR : RealFunction a.ellMax (modesOf (cut a.ellMax (Cwwy.rowOf f))) := by
    intro ell m q0 q1 qm
    rw [modes_cut f q0 q1 qm, modes_cut f q0 q1 (by rwa [abs_neg])]
    exact h.real ell m q0 q1 qm
  have hA : AtRest (cut a.ellMax (Cwwy.rowOf f)) := by
    have hL := hp.ell
    constructor
    · rw [modes_cut f le_rfl (by omega) (by simp)]
      exact h.energy
    · intro m hm
      rw [modes_cut f (by omega) hL hm]
      exact h.momentum m hm
  obtain ⟨T, t1, t2, t3, t4⟩ := Verif.Props.Moreschi.superrest_converges hE hs hp.ell hC hR hA N hN x hx
  unfold SuperrestMap.supertranslation
  rw [psi_stationary hp h, ok_bind, t1, ok_bind]
  show Except.ok { T with super := cut a.ellMax T.super } = _
  congr 1
  unfold warp
  rw [t2, t3]
  congr 1
  funext i
  have e0 : (move 0 0 1).super i = 0 := by
    rw [move_zero, turn_one]
    rfl
  rw [e0]
  unfold cut
  by_cases hi : 0 ≤ i ∧ i < (a.ellMax + 1) ^ 2
  · rw [if_pos hi, if_pos hi]
    have h1 : Int.sqrt i * Int.sqrt i ≤ i := by
      have := Nat.sqrt_le i.toNat
      unfold Int.sqrt
      omega
    have h3 : i < (Int.sqrt i + 1) * (Int.sqrt i + 1) := by
      have := Nat.lt_succ_sqrt i.toNat
      have h : (i.toNat : Int) = i := Int.toNat_of_nonneg hi.1
      rw [← h]
      unfold Int.sqrt
      exact_mod_cast this
    have h0 : 0 ≤ Int.sqrt i := by
      unfold Int.sqrt
      omega
    have hm : |i - Int.sqrt i * (Int.sqrt i + 1)| ≤ Int.sqrt i := abs_le.2 ⟨by nlinarith, by nlinarith⟩
    have hl : Int.sqrt i ≤ a.ellMax := by
      by_contra hc
      push Not at hc
      have := hp.ell
      nlinarith [hi.2]
    have e := t4 (Int.sqrt i) (i - Int.sqrt i * (Int.sqrt i + 1)) h0 hl hm
    rw [modes_cut f h0 hl hm] at e
    unfold modesOf at e
    rw [show lmIndex (Int.sqrt i) (i - Int.sqrt i * (Int.sqrt i + 1)) 0 = i by unfold lmIndex; ring] at e
    rw [e]
    by_cases hl2 : Int.sqrt i < 2
    · rw [if_pos hl2, if_pos (by nlinarith)]
    · rw [if_neg hl2, if_neg (by nlinarith), h2 _ _ (by omega) hl hm]
      unfold Cwwy.rowOf Superrest.factorD
      rw [if_neg hl2]
      have k2 : (2 : ℝ) ≤ Int.sqrt i := by exact_mod_cast (show 2 ≤ Int.sqrt i by omega)
      have hx : ((Int.sqrt i : Int) : ℂ) = ((Int.sqrt i : ℝ) : ℂ) := by norm_cast
      rw [hx]
      generalize (Int.sqrt i : ℝ) = z at *
      have z1 : ((z : ℂ) + 2) ≠ 0 := by exact_mod_cast (show z + 2 ≠ 0 by linarith)
      have z2 : ((z : ℂ) + 1) ≠ 0 := by exact_mod_cast (show z + 1 ≠ 0 by linarith)
      have z3 : (z : ℂ) ≠ 0 := by exact_mod_cast (show z ≠ 0 by linarith)
      have z4 : ((z : ℂ) - 1) ≠ 0 := by exact_mod_cast (show z - 1 ≠ 0 by linarith)
      field_simp
  · rw [if_neg hi, if_neg hi, ite_self]

/-- The supermomentum in the supertranslated frame. -/
theorem seen_stationary {base : Data} (hmul : IsProduct base.ellMax c.mul) (hprod : ∀ d, c.prod d = c.mul 2 (-2) d.sigma (bar 2 d.sigmaDot)) (hL : 1 ≤ base.ellMax) (hQ : Quiet base) (hpl : Plain c.toExt base) (hβ : High base.ellMax β)
    (hw : Seen β a base) (hq : UnitRotor 1) (h : Moved 1 s a' a) :
    ∃ f, Stationary c.toExt a' f ∧ ∀ ell m, 2 ≤ ell → ell ≤ a'.ellMax → |m| ≤ ell → f ell m = -(Superrest.factorD ell * β ell m) := by
  obtain ⟨M, hM, hn⟩ := hpl
  have e1 : a'.ellMax = base.ellMax := h.1.trans hw.1
  refine ⟨fun ell m => if ell = 0 then (-M : ℂ) else if ell < 2 then 0 else -(Superrest.factorD ell * β ell m), ⟨fun d' hd' => ?_, fun ell m h0 hl hm => ?_, ?_, fun m _ => ?_⟩, fun ell m h2 _ _ => ?_⟩
  · obtain ⟨d, hd, hr⟩ := forall₂_left h.2 d' hd'
    obtain ⟨p, hp, hs⟩ := hw.2 d hd
    obtain ⟨f, f1, f2⟩ := hn p hp
    have f3 : supermomentum (c.prod p) p "moreschi" false = .ok fun ell m => p.psi2 ell m + c.prod p ell m + ethGHP (-1) (ethGHP (-2) (bar 2 p.sigma)) ell m := rfl
    have g3 : supermomentum (c.prod d) d "moreschi" false = .ok fun ell m => d.psi2 ell m + c.prod d ell m + ethGHP (-1) (ethGHP (-2) (bar 2 d.sigma)) ell m := rfl
    rw [f3] at f1
    cases f1
    rw [hw.1] at hr
    obtain ⟨g, g', r1, r2, r3⟩ := Verif.Props.ChargeCov.supermomentum_rotated hmul hL hq hr "moreschi" (by simp [Verif.Props.Charges.names]) false
    rw [← hprod, g3] at r1
    cases r1
    refine ⟨g', by rw [hprod d', r2], fun ell m h0 h1 hl => ?_⟩
    rw [e1] at h1
    rw [r3 ell m (by simpa using h0) h1 hl, Verif.Rotation.rot_one ell _ m (abs_le.1 hl)]
    have k := f2 ell m h0 h1 hl
    beta_reduce at k ⊢
    rw [hprod, quiet_product hmul (hQ p hp).news ell m h0 hl] at k
    rw [hs.psi2 ell m h0 h1 hl, hprod, quiet_product hmul hs.news ell m h0 hl]
    by_cases h2 : 2 ≤ ell
    · have hl' : |(-m)| ≤ ell := by rwa [abs_neg]
      have e := D_real hβ.real h2 h1 hl
      rw [if_neg (by omega)] at k
      rw [if_neg (by omega), if_neg (by omega), ← e]
      unfold ethGHP bar at k ⊢
      rw [hs.sigma ell (-m) h2 h1 hl', map_sub]
      unfold ethGHP
      linear_combination k
    · have z' : ∀ g : Modes, ethGHP (-1) (ethGHP (-2) g) ell m = 0 := by
        intro g
        show _ * ethGHP (-2) g ell m = 0
        rw [eth_low g ell m h0 (by omega), mul_zero]
      rw [z'] at k ⊢
      rw [k]
      by_cases he : ell = 0
      · rw [if_pos he, if_pos he]
      · rw [if_neg he, if_neg he, if_pos (by omega)]
  · by_cases he : ell = 0
    · subst he
      have hm0 : m = 0 := by simpa using hm
      subst hm0
      simp
    · by_cases h2 : ell < 2
      · simp [he, h2]
      · rw [e1] at hl
        simp only [if_neg he, if_neg h2]
        rw [hβ.real ell m h0 hl hm, map_neg, map_mul, Verif.Props.Moreschi.factorD_conj]
        ring
  · simpa using hM
  · simp
  · beta_reduce
    rw [if_neg (by omega), if_neg (by omega)]

/-! ## The data in the frames that are tried -/

theorem high_neg (h : High L β) : High L fun ell m => -β ell m := by
  obtain ⟨h1, h2, ell, m, k1, k2, k3, k4⟩ := h
  refine ⟨fun ell m hl => by rw [h1 ell m hl, neg_zero], fun ell m h0 hl hm => ?_, ell, m, k1, k2, k3, neg_ne_zero.2 k4⟩
  rw [h2 ell m h0 hl hm, map_neg]
  ring

theorem bounded_neg {r : ℝ} (h : Bounded L β r) : Bounded L (fun ell m => -β ell m) r := by
  intro θ φ
  have e : Verif.Spec.Sphere.field 0 0 L (fun ell m => -β ell m) θ φ = -Verif.Spec.Sphere.field 0 0 L β θ φ := by
    simp [Verif.Spec.Sphere.field, Finset.sum_neg_distrib]
  rw [e, Complex.neg_re, abs_neg]
  exact h θ φ

/-- The supertranslation back. -/
theorem displaced_base {base : Data} (hL : 1 ≤ base.ellMax) (hβ : High base.ellMax β) (hw : Seen β a base) (h : Displaced (warp a.ellMax (fun ell m => -β ell m) s y q) a' a) : Displaced (move s y q) a' base := by
  refine ⟨h.ell.trans hw.1, h.two, h.inc, h.quiet, fun d' hd' => ?_⟩
  obtain ⟨d, hd, mid, h1, h2⟩ := h.data d' hd'
  obtain ⟨p, hp, h3⟩ := hw.2 d hd
  rw [hw.1] at h1 h2
  refine ⟨p, hp, mid, super_add hL h3 h1 fun ell m k0 kb km => ?_, h2⟩
  rw [warp_sum (fun ell m hl => by rw [hβ.low ell m hl, neg_zero]) s y q k0 kb km]
  ring

theorem length_nonneg (x : Fin 3 → ℝ) : 0 ≤ Spec.Displaced.length x := Real.sqrt_nonneg _

theorem length_zero : Spec.Displaced.length 0 = 0 := by simp [Spec.Displaced.length]

theorem ample_room {r1 r2 : ℝ} {t : List ℝ} (h2 : 0 ≤ r2) (h : Ample r1 r2 t) : Room (r1 + r2) t ∧ Room r1 t := by
  obtain ⟨t1, m1, t2, m2, u, mu, v, mv, t3, m3, t4, m4, k1, k2, k3, k4, k5⟩ := h
  exact ⟨⟨t1, m1, u, mu, v, mv, t4, m4, by linarith, k3, by linarith⟩, ⟨t1, m1, u, mu, v, mv, t4, m4, by linarith, k3, by linarith⟩⟩

section
variable (hE : Exact c.map2salm) (hs : ConstSpline c.spline) (hI : PositiveIntegral c.integrate) (hprod : ∀ d, c.prod d = c.mul 2 (-2) d.sigma (bar 2 d.sigmaDot)) (hf : Warps c) {o : Opts} (ho : Sensible o) (order : List Step)
  (hk : ∀ s ∈ order, s = .supertranslation ∨ s = .rotation ∨ s = .com) (hrot : Step.rotation ∈ order) (hcom : Step.com ∈ order) (t0 padding : ℝ) (abd w : Data) (hw : window t0 padding abd = .ok w) (hmul : IsProduct abd.ellMax c.mul)
  (hL : 1 ≤ abd.ellMax) (hinc : (times abd).Pairwise (· < ·)) (hQ : Quiet abd)
include hE hs hI hprod hf ho hk hrot hcom hw hmul hL hinc hQ

/-- C107: an object at rest at the place `x`, with a spin in any direction `n` but `-z`, seen from a frame that is supertranslated by `β` from one in which the supermomentum is that of a mass, is taken to the superrest frame by
`map_to_superrest_frame` in one pass, if the solver for the supertranslation is the first: the transformation found is the supertranslation by `-β`, the translation by `-x` and a rotation that takes the `z` axis to `n`.  The errors are 0. -/
theorem warped (base : Data) (β : Modes) (x n : Fin 3 → ℝ) (r : ℝ) (hseen : Seen β w base) (hβ : High abd.ellMax β) (hr : Bounded abd.ellMax β r) (hample : Ample r (Spec.Displaced.length x) (times w)) (hQb : Quiet base)
    (hx : Placed c.toExt base x) (hpl : Plain c.toExt base) (hn : n 0 ^ 2 + n 1 ^ 2 + n 2 ^ 2 = 1) (hd : Directed c.toExt base n) (hz : n ≠ ![0, 0, -1]) :
    ∃ q abd', UnitRotor q ∧ rotateVec q ![0, 0, 1] = n ∧ c.transform abd (warp abd.ellMax (fun ell m => -β ell m) 0 (-x) q) = .ok abd' ∧ Displaced (warp abd.ellMax (fun ell m => -β ell m) 0 (-x) q) abd' abd ∧
      mapToSuperrest c o (.supertranslation :: order) t0 padding abd = .ok (abd', warp abd.ellMax (fun ell m => -β ell m) 0 (-x) q, .tuple (.fin 0) (.fin 0) (.fin 0)) := by
  have hn1 : norm3 n = 1 := by
    unfold norm3
    rw [hn, Real.sqrt_one]
  have hv : AbdTransform.vabs n = 1 := hn1
  obtain ⟨q, q1, q0, q3, q4⟩ := Verif.Props.Superrest.spin_rotor n (by
    rintro ⟨k, hk0, rfl⟩
    apply hz
    have : k = 1 := by
      have h : k ^ 2 = 1 := by simpa using hn
      nlinarith [sq_nonneg (k - 1)]
    rw [this])
  have q2 : UnitRotor q := q0.1
  rw [hv, inv_one, one_smul] at q3
  rw [hv] at q4
  have u1 := Verif.Rotation.unit_one
  have hF := hf.frames
  have hA := high_neg hβ
  have hAr := bounded_neg hr
  -- the window
  have hsub : w.ellMax = abd.ellMax ∧ w.at'.Sublist abd.at' := by
    unfold window at hw
    generalize AbdFrame.nearest (times abd) (t0 - (padding + 200)) = A at hw
    generalize AbdFrame.nearest (times abd) (t0 + (padding + 200)) = B at hw
    rcases A with e | i
    · cases hw
    rcases B with e | j
    · cases hw
    cases hw
    exact ⟨rfl, (List.take_sublist _ _).trans (List.drop_sublist _ _)⟩
  have hincw : (times w).Pairwise (· < ·) := hinc.sublist (hsub.2.map _)
  have hQw : Quiet w := fun d h => by
    rw [hsub.1]
    exact hQ d (hsub.2.subset h)
  have eb : base.ellMax = abd.ellMax := hseen.1.symm.trans hsub.1
  have hmulb : IsProduct base.ellMax c.mul := by
    rw [eb]
    exact hmul
  have hLb : 1 ≤ base.ellMax := by
    rw [eb]
    exact hL
  have hβb : High base.ellMax β := by
    rw [eb]
    exact hβ
  have hlen : Spec.Displaced.length (-x) = Spec.Displaced.length x := by simp [Spec.Displaced.length]
  obtain ⟨room1, room2⟩ := ample_room (length_nonneg x) hample
  have hroomA : Room (r + Spec.Displaced.length (-x)) (times abd) := by
    rw [hlen]
    obtain ⟨t1, h1, u, hu, v, hv, t2, h2, k⟩ := room1
    have m := (hsub.2.map (·.t)).subset
    exact ⟨t1, m h1, u, m hu, v, m hv, t2, m h2, k⟩
  obtain ⟨abd', f1, f2, -⟩ := hf.transform abd _ 0 (-x) q r hA hAr q2 hQ hinc hroomA
  -- the states
  set rr : Bool → Quaternion ℝ := fun r => if r then q else 1 with hrr
  set yy : Bool → Fin 3 → ℝ := fun m => if m then -x else 0 with hyy
  set b : Bool → Bool → Tr := fun r m => warp abd.ellMax (fun ell m => -β ell m) t0 (yy m) (rr r) with hb
  have ur' : ∀ r, Rotor (rr r) := by
    intro r
    cases r
    · exact rotor_one
    · exact q0
  have ur : ∀ r, UnitRotor (rr r) := fun r => (ur' r).1
  have start : ∀ k m, ∃ d, c.transform w (b k m) = .ok d ∧ Displaced (move t0 (yy m) (rr k)) d base ∧ (m = false → Room (Spec.Displaced.length x) (times d)) := by
    intro k m
    have hA' := hA
    have hAr' := hAr
    rw [← hsub.1] at hA' hAr'
    have hroom : Room (r + Spec.Displaced.length (yy m)) (times w) := by
      cases m
      · show Room (r + Spec.Displaced.length 0) _
        rw [length_zero, add_zero]
        exact room2
      · show Room (r + Spec.Displaced.length (-x)) _
        rw [hlen]
        exact room1
    obtain ⟨d, d1, d2, d3⟩ := hf.transform w _ t0 (yy m) (rr k) r hA' hAr' (ur k) hQw hincw hroom
    refine ⟨d, ?_, displaced_base hLb hβb hseen d2, fun hm => ?_⟩
    · rw [hsub.1] at d1
      exact d1
    · subst hm
      have e : r + Spec.Displaced.length (yy false) = r := by
        show r + Spec.Displaced.length 0 = r
        rw [length_zero, add_zero]
      rw [e] at d3
      have hx0 := length_nonneg x
      obtain ⟨t1, m1, t2, m2, u, mu, v, mv, t3, m3, t4, m4, k1, k2, k3, k4, k5⟩ := hample
      have hr0 : 0 ≤ r := (abs_nonneg _).trans (hr 0 0)
      refine ⟨t2 - t0, d3 t2 m2 ⟨t1, m1, by linarith⟩ ⟨t4, m4, by linarith⟩, u - t0, d3 u mu ⟨t1, m1, by linarith⟩ ⟨t4, m4, by linarith⟩, v - t0, d3 v mv ⟨t1, m1, by linarith⟩ ⟨t4, m4, by linarith⟩, t3 - t0,
        d3 t3 m3 ⟨t1, m1, by linarith⟩ ⟨t4, m4, by linarith⟩, by linarith, by linarith, by linarith⟩
  have state : ∀ r m, ∃ d, c.transform w (b r m) = .ok d ∧ d.ellMax = base.ellMax ∧ Quiet d ∧ Plain c.toExt d ∧ Placed c.toExt d (rotateVec (star (rr r)) (x + yy m)) ∧ Directed c.toExt d (rotateVec (star (rr r)) n) ∧
      Spec.FrameErrors.Proper c.toExt d ∧ (m = false → Room (Spec.Displaced.length x) (times d)) := by
    intro r m
    obtain ⟨d, d1, d2, d3⟩ := start r m
    have hxd := displaced_placed hmulb hLb (ur r) hQb d2 hx
    exact ⟨d, d1, d2.ell, d2.quiet, displaced_plain hmulb hprod hLb (ur r) hQb d2 hpl, hxd, displaced_directed hmulb hLb (ur r) hQb d2 hx hd, proper_of (by rw [d2.ell]; exact hLb) d2.two d2.inc hxd, d3⟩
  have one : Tr.one = move 0 0 1 := by rw [move_zero, turn_one]
  have c1 : ∀ r m, c.compose Tr.one (b r m) = .ok (b r m) := by
    intro r m
    have := hf.before abd.ellMax _ 0 t0 0 (yy m) 1 (rr r) hA rotor_one (ur' r) (by rw [mul_one]; exact ur' r)
    rwa [zero_add, rotateVec_zero, add_zero, mul_one, ← one] at this
  have h11 : c.compose Tr.one Tr.one = .ok Tr.one := by
    have := hF.compose 0 0 0 0 1 1 rotor_one rotor_one (by rw [one_mul]; exact rotor_one)
    rwa [zero_add, rotateVec_zero, add_zero, mul_one, ← one] at this
  obtain ⟨x1, tx1, px1⟩ := ho.comTol
  obtain ⟨x2, tx2, px2⟩ := ho.rotationTol
  obtain ⟨x3, tx3, px3⟩ := ho.supertranslationTol
  have step : ∀ r m d st, st = .supertranslation ∨ st = .rotation ∨ st = .com → (calls c o).transform w (b r m) = .ok d →
      ∃ T d', (calls c o).solve st d = .ok T ∧ (calls c o).compose T (b r m) = .ok (b (r || decide (st = .rotation)) (m || decide (st = .com))) ∧ (calls c o).transform w (b (r || decide (st = .rotation)) (m || decide (st = .com))) = .ok d' := by
    intro r m d st hst htr
    obtain ⟨d0, s1, s2, s3, s4, s5, s6, s7, s8⟩ := state r m
    have e : d0 = d := by
      have htr : c.transform w (b r m) = .ok d := htr
      rw [s1] at htr
      injection htr
    subst e
    obtain ⟨d', t1, -⟩ := state (r || decide (st = .rotation)) (m || decide (st = .com))
    have hmd : IsProduct d0.ellMax c.mul := by
      rw [s2]
      exact hmulb
    suffices ∃ T, (calls c o).solve st d0 = .ok T ∧ c.compose T (b r m) = .ok (b (r || decide (st = .rotation)) (m || decide (st = .com))) by
      obtain ⟨T, k1, k2⟩ := this
      exact ⟨T, d', k1, k2, t1⟩
    rcases hst with rfl | rfl | rfl
    · obtain ⟨f, hf1, hf2⟩ := plain_stationary s4
      refine ⟨Tr.one, ?_, by simpa using c1 r m⟩
      show SuperrestMap.supertranslation c o.supertranslation o.supertranslationTol d0 = _
      rw [tx3]
      exact supertranslation_one hE hs s7 hf1 (fun ell m h2 _ _ => hf2 ell m (by omega)) ho.supertranslation px3
    · cases r
      · refine ⟨turn 0 q, ?_, ?_⟩
        · show (SuperrestLoop.rotation (rotationEnv c) d0 o.rotation o.rotationTol >>= _) = _
          have s6' : Directed c.toExt d0 n := by
            have : rr false = 1 := rfl
            rwa [this, star_one, Verif.Props.AbdTransform.rotateVec_one] at s6
          rw [rotation_turn hmd hF.turns s7 hI hn1 s6' q1 q0 q4 ho.rotation (tol := o.rotationTol) (by rw [tx2]; exact px2)]
          rfl
        · have := hf.before abd.ellMax _ 0 t0 0 (yy m) q 1 hA q0 rotor_one (by rw [one_mul]; exact q0)
          rw [zero_add, rotateVec_zero, add_zero, one_mul, move_zero] at this
          have e : b (false || decide (Step.rotation = .rotation)) (m || decide (Step.rotation = .com)) = b true m := by simp
          rw [e]
          exact this
      · refine ⟨Tr.one, ?_, by simpa using c1 true m⟩
        have s6' : Directed c.toExt d0 ![0, 0, 1] := by
          have : rr true = q := rfl
          rwa [this, q4] at s6
        show (SuperrestLoop.rotation (rotationEnv c) d0 o.rotation o.rotationTol >>= _) = _
        rw [rotation_one s7 hI (upright_of_directed s6') h11 (hF.turns.same d0) ho.rotation (tol := o.rotationTol) (by rw [tx2]; exact px2)]
        rfl
    · by_cases here : m = true ∨ x = 0
      · have e : b (r || decide (Step.com = .rotation)) (m || decide (Step.com = .com)) = b r m := by
          have e1 : (r || decide (Step.com = .rotation)) = r := by simp
          have e2 : (m || decide (Step.com = .com)) = true := by simp
          rw [e1, e2]
          rcases here with h | h
          · rw [h]
          · show warp _ _ t0 (yy true) (rr r) = warp _ _ t0 (yy m) (rr r)
            have : yy true = yy m := by
              show -x = yy m
              cases m
              · show -x = 0
                rw [h, neg_zero]
              · rfl
            rw [this]
        refine ⟨Tr.one, ?_, by rw [e]; exact c1 r m⟩
        have s5' : Placed c.toExt d0 0 := by
          have : x + yy m = 0 := by
            rcases here with h | h
            · rw [h]
              exact add_neg_cancel x
            · cases m
              · show x + 0 = 0
                rw [h, add_zero]
              · exact add_neg_cancel x
          rwa [this, rotateVec_zero] at s5
        show (SuperrestLoop.com (comEnv c) d0 o.com o.comTol >>= _) = _
        rw [com_one s7 hI (centered_of_placed s5') h11 (hF.turns.same d0) ho.com (tol := o.comTol) (by rw [tx1]; exact px1)]
        rfl
      · push Not at here
        obtain ⟨hm, hx0⟩ := here
        have hm : m = false := by simpa using hm
        subst hm
        have s5' : Placed c.toExt d0 (rotateVec (star (rr r)) x) := by
          have : yy false = 0 := rfl
          rwa [this, add_zero] at s5
        refine ⟨move 0 (-(rotateVec (star (rr r)) x)) 1, ?_, ?_⟩
        · show (SuperrestLoop.com (comEnv c) d0 o.com o.comTol >>= _) = _
          rw [com_move hmd hF s7 hI s3 (fun h => hx0 (by rw [← rotateVec_star (ur r) x, h, rotateVec_zero])) s5' (by rw [rotateVec_length (Verif.Rotation.unit_star (ur r))]; exact s8 rfl) ho.com (tol := o.comTol) (by rw [tx1]; exact px1)]
          rfl
        · have := hf.before abd.ellMax _ 0 t0 (-(rotateVec (star (rr r)) x)) 0 1 (rr r) hA rotor_one (ur' r) (by rw [mul_one]; exact ur' r)
          rw [zero_add, Verif.Lemmas.Bms.rotateVec_neg, rotateVec_star (ur r), zero_add, mul_one] at this
          have e : b (r || decide (Step.com = .rotation)) (false || decide (Step.com = .com)) = b r true := by simp
          rw [e]
          exact this
  -- the first step
  obtain ⟨z, z1, z2⟩ := hF.turns.transform w t0 1 u1
  have hpw : Spec.FrameErrors.Proper c.toExt w := by
    refine ⟨room_length room1, hincw, fun d hd => ?_, by rw [hseen.1]; exact hLb⟩
    obtain ⟨p, hp, h3⟩ := hseen.2 d hd
    obtain ⟨E, hE0, h1, -⟩ := hx p hp
    refine ⟨E, 0, 0, 0, ?_, hE0, by simpa using pow_pos hE0 2⟩
    show bondiFourMomentum c.mul c.dflt d = _
    rw [super_momentum hLb hmulb (hQb p hp).news h3]
    exact h1
  have hpz : Spec.FrameErrors.Proper c.toExt z := moved_proper (by rw [hseen.1]; exact hmulb) u1 z2 hpw
  obtain ⟨f, hf1, hf2⟩ := seen_stationary hmulb hprod hLb hQb hpl hβb hseen u1 z2
  have hsol : (calls c o).solve .supertranslation z = .ok (warp abd.ellMax (fun ell m => -β ell m) 0 0 1) := by
    show SuperrestMap.supertranslation c o.supertranslation o.supertranslationTol z = _
    rw [tx3, warp_found hE hs hpz hf1 hf2 ho.supertranslation px3, z2.1, hsub.1]
  obtain ⟨d, d1, -⟩ := state false false
  have hfirst : SuperrestLoop.inner (calls c o) false w { new := none, bms := turn t0 1, abd := z, rel := .start } .supertranslation = .ok { new := some (warp abd.ellMax (fun ell m => -β ell m) 0 0 1), bms := b false false, abd := d, rel := .start } :=
    inner_ok (.inl rfl) hsol (hf.after _ _ t0 hA) d1
  obtain ⟨new, d', hfold, e1⟩ := fold_flags (o := calls c o) (w := w) b step order hk false false { new := some (warp abd.ellMax (fun ell m => -β ell m) 0 0 1), bms := b false false, abd := d, rel := .start } rfl d1 rfl
  simp only [hrot, hcom, decide_true, Bool.or_true] at hfold e1
  obtain ⟨d0, s1, s2, s3, s4, s5, s6, s7, -⟩ := state true true
  have e : d0 = d' := by
    have e1 : c.transform w (b true true) = .ok d' := e1
    rw [s1] at e1
    injection e1
  subst e
  have s5' : Placed c.toExt d0 0 := by
    have : yy true = -x := rfl
    rwa [this, add_neg_cancel, rotateVec_zero] at s5
  have s6' : Directed c.toExt d0 ![0, 0, 1] := by
    have : rr true = q := rfl
    rwa [this, q4] at s6
  have k4 : c.compose (timeTranslation t0) Tr.one = .ok (turn t0 1) := by
    have := compose_right hF.turns t0 0 rotor_one
    rwa [add_zero, turn_one] at this
  have k5 : c.compose (timeTranslation (-t0)) (b true true) = .ok (warp abd.ellMax (fun ell m => -β ell m) 0 (-x) q) := by
    have := hf.before abd.ellMax _ (-t0) t0 0 (-x) 1 q hA rotor_one q0 (by rw [mul_one]; exact q0)
    rw [neg_add_cancel, rotateVec_zero, add_zero, mul_one, move_zero] at this
    exact this
  refine ⟨q, abd', q2, q3, f1, f2, ?_⟩
  unfold mapToSuperrest
  rw [hw, ok_bind, k4, ok_bind]
  exact superrest_first ho (order := .supertranslation :: order) (by rw [List.foldlM_cons, hfirst, ok_bind]; exact hfold) z1 (errors_zero s7 hI ⟨centered_of_placed s5', upright_of_directed s6', plain_nice s7 s4⟩) k5 f1

end

/-! ## The hypotheses can be met -/

/-- No modes of the supertranslation but those of translations. -/
def Flat (T : Tr) : Prop := ∀ i, 4 ≤ i → T.super i = 0

open Classical in
/-- Supertranslations and rotations, with products that are those of functions on the sphere. -/
noncomputable def warpCalls (map2salm : List ℂ → Int → Int → Row ℂ) (spline : List ℝ → List ℝ → ℝ → ℝ) : Calls :=
  { moveCalls map2salm spline with
    compose := fun S T => .ok
      { super := fun i => if i < 4 then (move (timeOf S + timeOf T) (spaceOf T + rotateVec T.rotation (spaceOf S)) (T.rotation * S.rotation)).super i else S.super i + T.super i, rotation := T.rotation * S.rotation, boost := 0 }
    transform := fun a T => if Flat T then (moveCalls map2salm spline).transform a T else .ok { a with at' := a.at'.map fun d => rotated T.rotation 0 (shifted a.ellMax T d) } }

theorem timeOf_warp (A : Modes) : timeOf (warp L A s y q) = s := timeOf_move s y q
theorem spaceOf_warp (A : Modes) : spaceOf (warp L A s y q) = y := spaceOf_move s y q

theorem move_flat (s : ℝ) (y : Fin 3 → ℝ) (q : Quaternion ℝ) : Flat (move s y q) := by
  intro i h
  unfold move
  simp only
  rw [if_neg (by omega), if_neg (by omega), if_neg (by omega), if_neg (by omega)]

theorem one_flat : Flat Tr.one := fun _ _ => rfl

theorem warp_not_flat (hA : High L A) : ¬ Flat (warp L A s y q) := by
  obtain ⟨ell, m, k1, k2, k3, k4⟩ := hA.some
  intro h
  have hm := abs_le.1 k3
  apply k4
  rw [← warp_high A s y q k1 k2 k3]
  exact h _ (by nlinarith)

section
variable (map2salm : List ℂ → Int → Int → Row ℂ) (spline : List ℝ → List ℝ → ℝ → ℝ)

theorem flat_transform {T : Tr} (h : Flat T) (a : Data) : (warpCalls map2salm spline).transform a T = (moveCalls map2salm spline).transform a T := if_pos h

theorem warp_compose_move (s1 s2 : ℝ) (y1 y2 : Fin 3 → ℝ) (q1 q2 : Quaternion ℝ) : (warpCalls map2salm spline).compose (move s1 y1 q1) (move s2 y2 q2) = .ok (move (s1 + s2) (y2 + rotateVec q2 y1) (q2 * q1)) := by
  show Except.ok (Tr.mk (fun i => if i < 4 then (move (timeOf (move s1 y1 q1) + timeOf (move s2 y2 q2)) (spaceOf (move s2 y2 q2) + rotateVec q2 (spaceOf (move s1 y1 q1))) (q2 * q1)).super i
    else (move s1 y1 q1).super i + (move s2 y2 q2).super i) (q2 * q1) 0) = _
  rw [timeOf_move, timeOf_move, spaceOf_move, spaceOf_move]
  congr 1
  have : move (s1 + s2) (y2 + rotateVec q2 y1) (q2 * q1) = Tr.mk (move (s1 + s2) (y2 + rotateVec q2 y1) (q2 * q1)).super (q2 * q1) 0 := rfl
  rw [this]
  congr 1
  funext i
  by_cases h : i < 4
  · rw [if_pos h]
  · rw [if_neg h, move_flat _ _ _ i (by omega), move_flat _ _ _ i (by omega), move_flat _ _ _ i (by omega), add_zero]

theorem warp_before (A : Modes) (s1 s2 : ℝ) (y1 y2 : Fin 3 → ℝ) (q1 q2 : Quaternion ℝ) :
    (warpCalls map2salm spline).compose (move s1 y1 q1) (warp L A s2 y2 q2) = .ok (warp L A (s1 + s2) (y2 + rotateVec q2 y1) (q2 * q1)) := by
  show Except.ok (Tr.mk (fun i => if i < 4 then (move (timeOf (move s1 y1 q1) + timeOf (warp L A s2 y2 q2)) (spaceOf (warp L A s2 y2 q2) + rotateVec q2 (spaceOf (move s1 y1 q1))) (q2 * q1)).super i
    else (move s1 y1 q1).super i + (warp L A s2 y2 q2).super i) (q2 * q1) 0) = _
  rw [timeOf_move, timeOf_warp, spaceOf_warp, spaceOf_move]
  congr 1
  unfold warp
  congr 1
  funext i
  by_cases h : i < 4
  · rw [if_pos h, if_pos h]
  · simp only
    rw [if_neg h, if_neg h, if_neg h, move_flat _ _ _ i (by omega), zero_add]

theorem warp_after (A : Modes) (s : ℝ) : (warpCalls map2salm spline).compose (warp L A 0 0 1) (turn s 1) = .ok (warp L A s 0 1) := by
  rw [← move_zero]
  show Except.ok (Tr.mk (fun i => if i < 4 then (move (timeOf (warp L A 0 0 1) + timeOf (move s 0 1)) (spaceOf (move s 0 1) + rotateVec 1 (spaceOf (warp L A 0 0 1))) (1 * 1)).super i
    else (warp L A 0 0 1).super i + (move s 0 1).super i) (1 * 1) 0) = _
  rw [timeOf_move, timeOf_warp, spaceOf_warp, spaceOf_move, rotateVec_zero, zero_add, add_zero, mul_one]
  congr 1
  unfold warp
  congr 1
  funext i
  by_cases h : i < 4
  · rw [if_pos h, if_pos h]
  · simp only
    rw [if_neg h, if_neg h, if_neg h, move_flat _ _ _ i (by omega), add_zero]

theorem warp_frames : Frames (warpCalls map2salm spline) := by
  have hF := move_frames map2salm spline
  have ft : ∀ a s q, (warpCalls map2salm spline).transform a (turn s q) = (moveCalls map2salm spline).transform a (turn s q) := by
    intro a s q
    rw [← move_zero]
    exact flat_transform map2salm spline (move_flat _ _ _) a
  refine ⟨⟨fun s1 s2 q1 q2 h1 h2 h3 => ?_, fun a s q hq => ?_, fun a => ?_⟩, fun a s q a' hq hQ h => ?_, fun s1 s2 y1 y2 q1 q2 _ _ _ => warp_compose_move map2salm spline _ _ _ _ _ _, fun a s y q hy hq hQ hinc hroom => ?_⟩
  · have := warp_compose_move map2salm spline s1 s2 0 0 q1 q2
    rwa [rotateVec_zero, add_zero, move_zero, move_zero, move_zero] at this
  · rw [ft]
    exact hF.turns.transform a s q hq
  · rw [flat_transform map2salm spline one_flat]
    exact hF.turns.same a
  · rw [ft] at h
    exact hF.quiet a s q a' hq hQ h
  · rw [flat_transform map2salm spline (move_flat _ _ _)]
    exact hF.transform a s y q hy hq hQ hinc hroom

theorem shifted_spec (L : Int) (T : Tr) (d : Abd) : Supertranslated L (superOf T) d (shifted L T d) :=
  ⟨fun _ _ => rfl, fun _ _ _ _ _ => rfl, fun _ _ _ _ _ => rfl, fun m _ => by unfold shifted; simp only [if_true]⟩

theorem real_function {b : Int} {f : Modes} {τ : ℝ} {z : Fin 3 → ℝ} (h : IsReal b f τ z) : RealFunction b f := by
  intro ell m h0 hl hm
  have := h.real ell (-m) h0 hl (by rwa [abs_neg])
  rw [← this]
  show (-1 : ℂ) ^ (0 + -m).natAbs * (starRingEnd ℂ) (f ell (- -m)) = _
  rw [zero_add, Int.natAbs_neg, neg_neg]

theorem warp_real (hA : High L A) (s : ℝ) (y : Fin 3 → ℝ) (q : Quaternion ℝ) : RealFunction L (superOf (warp L A s y q)) := by
  have h1 := hA.real
  have h2 := real_function (super_real L s y q)
  intro ell m h0 hl hm
  rw [warp_sum hA.low s y q h0 hl hm, warp_sum hA.low s y q h0 hl (by rwa [abs_neg]), h1 ell m h0 hl hm, h2 ell m h0 hl hm, map_add]
  ring

theorem warp_warps : Warps (warpCalls map2salm spline) := by
  refine ⟨warp_frames map2salm spline, fun L A s _ => warp_after map2salm spline A s, fun L A s1 s2 y1 y2 q1 q2 _ _ _ _ => warp_before map2salm spline A s1 s2 y1 y2 q1 q2, fun a A s y q r hA hAr hq hQ hinc hroom => ?_⟩
  refine ⟨_, if_neg (warp_not_flat hA), ⟨rfl, ?_, ?_, ?_, ?_⟩, ?_⟩
  · show 2 ≤ (a.at'.map _).length
    rw [List.length_map]
    exact room_length hroom
  · unfold times at hinc ⊢
    rw [List.pairwise_map] at hinc
    rw [List.pairwise_map, List.pairwise_map]
    refine hinc.imp fun h => ?_
    show _ - timeOf _ - 0 < _ - timeOf _ - 0
    linarith
  · intro d' hd'
    obtain ⟨d, hd, rfl⟩ := List.mem_map.1 hd'
    exact rotated_quiet (super_quiet (hQ d hd) (warp_real hA s y q) (shifted_spec _ _ d)) _ _
  · intro d' hd'
    obtain ⟨d, hd, rfl⟩ := List.mem_map.1 hd'
    exact ⟨d, hd, _, shifted_spec _ _ d, rotated_rotated _ _ _ _⟩
  · intro t ht _ _
    unfold times at ht ⊢
    obtain ⟨d, hd, rfl⟩ := List.mem_map.1 ht
    rw [List.map_map]
    refine List.mem_map.2 ⟨d, hd, ?_⟩
    show d.t - timeOf (warp _ _ s y q) - 0 = _
    rw [timeOf_warp, sub_zero]

end

/-- A quadrupole. -/
noncomputable def quad : Modes := fun ell m => if ell = 2 ∧ (m = 2 ∨ m = -2) then 1 else 0

theorem quad_high : High 8 quad := by
  refine ⟨fun ell m h => if_neg (by omega), fun ell m _ _ _ => ?_, 2, 2, by norm_num, by norm_num, by norm_num, ?_⟩
  · unfold quad
    by_cases h : ell = 2 ∧ (m = 2 ∨ m = -2)
    · rw [if_pos h, if_pos (by omega)]
      rcases h.2 with rfl | rfl <;> norm_num
    · rw [if_neg h, if_neg (by omega), map_zero, mul_zero]
  · unfold quad
    rw [if_pos (by norm_num)]
    exact one_ne_zero

open Verif.GridMultiply Verif.Spec.Sphere in
theorem quad_bounded : ∃ r, 0 ≤ r ∧ Bounded 8 quad r := by
  set e : Modes := fun ell m => if ell = 2 ∧ m = 2 then 1 else 0 with he
  have f1 : ∀ θ φ, field 0 0 8 e θ φ = Y 0 2 2 (rotor θ φ) := by
    intro θ φ
    have := Verif.Props.GridMultiply.single 8 2 2 (by norm_num) (by norm_num) (by norm_num) (by norm_num) 0 1 (rotor θ φ)
    rw [one_mul] at this
    exact this
  have f2 : ∀ θ φ, field 0 0 8 quad θ φ = field 0 0 8 e θ φ + (starRingEnd ℂ) (field 0 0 8 e θ φ) := by
    intro θ φ
    rw [Verif.Balance.field_conj, neg_zero, ← Verif.Props.AngMomIntegral.field_sum]
    refine Verif.Props.SphereOps.field_congr _ _ _ _ _ θ φ fun ell m _ _ _ _ => ?_
    congr 1
    unfold quad bar
    rw [he]
    beta_reduce
    by_cases h : ell = 2
    · subst h
      by_cases h1 : m = 2
      · subst h1
        norm_num
      · by_cases h2 : m = -2
        · subst h2
          norm_num
        · rw [if_neg (by omega), if_neg (by omega), if_neg (by omega)]
          simp
    · rw [if_neg (by omega), if_neg (by omega), if_neg (by omega)]
      simp
  refine ⟨2 * (‖(fac 0 2 2 : ℂ)‖ * (3 / 2)), by positivity, fun θ φ => ?_⟩
  rw [f2, f1, Complex.add_re, Complex.conj_re, ← two_mul, abs_mul, abs_two]
  refine mul_le_mul_of_nonneg_left ((Complex.abs_re_le_norm _).trans ?_) zero_le_two
  rw [Verif.Props.GridMultiply.Y22]
  simp only [norm_mul, norm_pow, Complex.norm_real, Real.norm_eq_abs]
  have h1 : ‖Complex.exp (2 * φ * Complex.I)‖ = 1 := by
    have := Complex.norm_exp_ofReal_mul_I (2 * φ)
    push_cast at this
    exact this
  have h2 : |Real.sin θ| ^ 2 ≤ 1 := by
    rw [sq_abs]
    exact Real.sin_sq_le_one θ
  rw [h1]
  have h3 : ‖(3 / 2 : ℂ)‖ = 3 / 2 := by norm_num
  rw [h3, mul_one]
  exact mul_le_of_le_one_right (by positivity) h2

/-- A spinning object of which the center of mass is at `(0, 0, k)`, at six times. -/
noncomputable def stays (k τ : ℝ) : Data := { at' := [thing k 0, thing k τ, thing k (2 * τ), thing k (3 * τ), thing k (4 * τ), thing k (5 * τ)], ellMax := 8 }

theorem stay_of_mem {k τ : ℝ} {d : Abd} (h : d ∈ (stays k τ).at') : ∃ t, d = thing k t := by
  simp only [stays, List.mem_cons, List.not_mem_nil, or_false] at h
  rcases h with rfl | rfl | rfl | rfl | rfl | rfl <;> exact ⟨_, rfl⟩

theorem stays_quiet (k τ : ℝ) : Quiet (stays k τ) := by
  intro d hd
  obtain ⟨t, rfl⟩ := stay_of_mem hd
  refine ⟨fun _ _ => rfl, fun ell m _ _ hm => ?_⟩
  by_cases h : ell = 0
  · subst h
    have hm0 : m = 0 := by simpa using hm
    subst hm0
    simp [thing, ethGHP, bar]
  · simp [thing, ethGHP, bar, h]

section
variable (map2salm : List ℂ → Int → Int → Row ℂ) (spline : List ℝ → List ℝ → ℝ → ℝ) (k τ : ℝ)

theorem stays_placed : Placed (warpCalls map2salm spline).toExt (stays k τ) ![0, 0, k] := by
  intro d hd
  obtain ⟨t, rfl⟩ := stay_of_mem hd
  refine ⟨1 / √(4 * Real.pi), by positivity, thing_momentum map2salm spline k t, ?_⟩
  refine (thing_com map2salm spline k t).trans ?_
  simp

theorem stays_directed : Directed (warpCalls map2salm spline).toExt (stays k τ) ![0, 0, 1] := by
  intro d hd
  obtain ⟨t, rfl⟩ := stay_of_mem hd
  have pos : 0 < 1 / √3 / √(4 * Real.pi) / (1 / √(4 * Real.pi)) ^ 2 := by positivity
  obtain ⟨M1, M2, M3, hM⟩ := boost_ok (ext := (moveCalls map2salm spline).toExt) (thing k t)
  refine ⟨_, pos, M1, M2, M3, _, _, _, _, _, _, _, hM, thing_angular map2salm spline k t, thing_momentum map2salm spline k t, ?_⟩
  have h0 : (![0, 0, 0] : Fin 3 → ℝ) = 0 := by
    funext i
    fin_cases i <;> rfl
  rw [spin_at_rest _ 0, h0]
  generalize 1 / √3 / √(4 * Real.pi) = J
  generalize 1 / √(4 * Real.pi) = E
  funext i
  fin_cases i <;> simp [dimensionlessSpin]

theorem stays_plain : Plain (warpCalls map2salm spline).toExt (stays k τ) := by
  refine ⟨1, one_pos, fun d hd => ?_⟩
  obtain ⟨t, rfl⟩ := stay_of_mem hd
  refine ⟨_, rfl, fun ell m _ _ hm => ?_⟩
  by_cases h : ell = 0
  · subst h
    have hm0 : m = 0 := by simpa using hm
    subst hm0
    simp [warpCalls, moveCalls, thing, prod_zero, ethGHP, bar]
  · simp [warpCalls, moveCalls, thing, prod_zero, ethGHP, bar, h]

end

/-- If all times are near enough, all are kept. -/
theorem window_all {t0 padding : ℝ} (hinc : (times a).Pairwise (· < ·)) (hne : times a ≠ []) (h : ∀ t ∈ times a, t0 - (padding + 200) ≤ t ∧ t ≤ t0 + (padding + 200)) : window t0 padding a = .ok a := by
  obtain ⟨i, i1, u, i2, i3, -⟩ := Verif.Props.AbdFrame.nearest_spec (times a) (t0 - (padding + 200)) hne
  obtain ⟨j, j1, v, j2, j3, -⟩ := Verif.Props.AbdFrame.nearest_spec (times a) (t0 + (padding + 200)) hne
  have hlen : (times a).length = a.at'.length := by
    unfold times
    rw [List.length_map]
  obtain ⟨hi, rfl⟩ := List.getElem?_eq_some_iff.1 i2
  obtain ⟨hj, rfl⟩ := List.getElem?_eq_some_iff.1 j2
  rw [List.pairwise_iff_getElem] at hinc
  have ei : i = 0 := by
    by_contra hc
    have m := List.getElem_mem (l := times a) (show 0 < (times a).length by omega)
    have k1 := hinc 0 i (by omega) hi (by omega)
    have k2 := i3 _ m
    rw [abs_of_nonneg (by linarith [(h _ (List.getElem_mem hi)).1]), abs_of_nonneg (by linarith [(h _ m).1])] at k2
    linarith
  have ej : j + 1 = (times a).length := by
    by_contra hc
    have m := List.getElem_mem (l := times a) (show j + 1 < (times a).length by omega)
    have k1 := hinc j (j + 1) hj (by omega) (by omega)
    have k2 := j3 _ m
    rw [abs_of_nonpos (by linarith [(h _ (List.getElem_mem hj)).2]), abs_of_nonpos (by linarith [(h _ m).2])] at k2
    linarith
  unfold window
  rw [i1, ok_bind, j1, ok_bind, ei, ej, hlen]
  show Except.ok { a with at' := (a.at'.drop 0).take _ } = _
  rw [List.drop_zero, Nat.sub_zero, List.take_length]

/-- The data in the supertranslated frame. -/
noncomputable def away (β : Modes) (a : Data) : Data := { a with at' := a.at'.map fun d => Verif.Props.Cwwy.moved a.ellMax β d d.t }

theorem away_seen (β : Modes) (a : Data) : Seen β (away β a) a := by
  refine ⟨rfl, fun d hd => ?_⟩
  obtain ⟨p, hp, rfl⟩ := List.mem_map.1 hd
  exact ⟨p, hp, Verif.Props.Cwwy.moved_spec _ _ _ _⟩

theorem away_times (β : Modes) (a : Data) : times (away β a) = times a := by
  unfold times away
  rw [List.map_map]
  rfl

theorem away_quiet {a : Data} (hβ : High a.ellMax β) (h : Quiet a) : Quiet (away β a) := by
  intro d hd
  obtain ⟨p, hp, rfl⟩ := List.mem_map.1 hd
  exact super_quiet (h p hp) hβ.real (Verif.Props.Cwwy.moved_spec _ _ _ _)

theorem away_stays (hE : Exact c.map2salm) (hs : ConstSpline c.spline) (hI : PositiveIntegral c.integrate) (hprod : ∀ d, c.prod d = c.mul 2 (-2) d.sigma (bar 2 d.sigmaDot)) (hf : Warps c) {k τ r : ℝ} (hr : 0 ≤ r) (hk1 : |k| < τ) (hk2 : r < τ) {padding : ℝ} (hτ : 5 * τ ≤ padding)
    (hβ : High 8 β) (hβr : Bounded 8 β r) (hmul : IsProduct (stays k τ).ellMax c.mul) (h2 : Placed c.toExt (stays k τ) ![0, 0, k]) (h3 : Directed c.toExt (stays k τ) ![0, 0, 1]) (h4 : Plain c.toExt (stays k τ)) (hq : UnitRotor q)
    (hz : rotateVec (star q) ![0, 0, 1] ≠ ![0, 0, -1]) :
    ∃ base, c.transform (stays k τ) (turn 0 q) = .ok base ∧ ∀ o, Sensible o → ∃ u abd', rotateVec u ![0, 0, 1] = rotateVec (star q) ![0, 0, 1] ∧
      mapToSuperrest c o [.supertranslation, .rotation, .com] 0 padding (away β base) = .ok (abd', warp 8 (fun ell m => -β ell m) 0 (-(rotateVec (star q) ![0, 0, k])) u, .tuple (.fin 0) (.fin 0) (.fin 0)) := by
  obtain ⟨base, a1, a2⟩ := hf.frames.turns.transform (stays k τ) 0 q hq
  have hL : 1 ≤ (stays k τ).ellMax := by simp [stays]
  have hx := moved_placed hmul hL hq a2 h2
  have hd := moved_directed hmul hL hq a2 h3
  have hpl := moved_plain hmul hprod hL hq a2 h4
  have hl := Verif.Props.GridModes.rotateVec_length (star q) (Verif.Rotation.unit_star hq) ![0, 0, 1]
  rw [Fin.sum_univ_three, Fin.sum_univ_three] at hl
  have hQ := hf.frames.quiet _ 0 q base hq (stays_quiet k τ) a1
  have e8 : base.ellMax = 8 := a2.1
  have hβ' : High base.ellMax β := by
    rw [e8]
    exact hβ
  have ht : times (away β base) = [0, τ, 2 * τ, 3 * τ, 4 * τ, 5 * τ] := by
    rw [away_times]
    unfold times
    rw [moved_times a2]
    simp [stays, thing]
  have hk0 := abs_nonneg k
  have hτ0 : 0 < τ := by linarith
  have hinc : (times (away β base)).Pairwise (· < ·) := by
    rw [ht]
    simp only [List.pairwise_cons, List.mem_cons, List.not_mem_nil, or_false, forall_eq_or_imp, forall_eq, List.Pairwise.nil, and_true, IsEmpty.forall_iff, implies_true]
    refine ⟨⟨?_, ?_, ?_, ?_, ?_⟩, ⟨?_, ?_, ?_, ?_⟩, ⟨?_, ?_, ?_⟩, ⟨?_, ?_⟩, ?_⟩ <;> linarith
  have hw : window 0 padding (away β base) = .ok (away β base) := by
    refine window_all hinc (fun h => ?_) fun t h => ?_
    · rw [ht] at h
      cases h
    · rw [ht] at h
      simp only [List.mem_cons, List.not_mem_nil, or_false] at h
      rcases h with rfl | rfl | rfl | rfl | rfl | rfl <;> constructor <;> linarith
  have hlen : Spec.Displaced.length (rotateVec (star q) ![0, 0, k]) = |k| := by
    rw [rotateVec_length (Verif.Rotation.unit_star hq)]
    simp [Spec.Displaced.length, Real.sqrt_sq_eq_abs]
  have hample : Ample r (Spec.Displaced.length (rotateVec (star q) ![0, 0, k])) (times (away β base)) := by
    rw [hlen, ht]
    exact ⟨0, by simp, τ, by simp, 2 * τ, by simp, 3 * τ, by simp, 4 * τ, by simp, 5 * τ, by simp, by linarith, by linarith, by linarith, by linarith, by linarith⟩
  refine ⟨base, a1, fun o ho => ?_⟩
  obtain ⟨u, abd', -, r2, -, -, r3⟩ := warped hE hs hI hprod hf ho [.rotation, .com] (by simp) (by simp) (by simp) 0 padding (away β base) (away β base) hw (by show IsProduct base.ellMax c.mul; rw [a2.1]; exact hmul)
    (by show 1 ≤ base.ellMax; rw [a2.1]; exact hL) hinc (away_quiet hβ' hQ) base β _ _ r (away_seen β base) hβ' (by show Bounded base.ellMax β r; rw [e8]; exact hβr) hample hQ hx hpl (hl.trans (by simp)) hd hz
  have e : (away β base).ellMax = 8 := e8
  rw [e] at r3
  exact ⟨u, abd', r2, r3⟩

/-- A spinning object at any place on the `z` axis, seen from a frame that is rotated in any way such that the spin does not point to `-z` and then supertranslated by a quadrupole, meets all hypotheses of `warped`, if it is known for long enough. -/
example (q : Quaternion ℝ) (hq : UnitRotor q) (hz : rotateVec (star q) ![0, 0, 1] ≠ ![0, 0, -1]) (k : ℝ) : ∃ c τ padding base, Warps c ∧ c.transform (stays k τ) (turn 0 q) = .ok base ∧ ∀ o, Sensible o →
    ∃ u abd', rotateVec u ![0, 0, 1] = rotateVec (star q) ![0, 0, 1] ∧ mapToSuperrest c o [.supertranslation, .rotation, .com] 0 padding (away quad base) =
      .ok (abd', warp 8 (fun ell m => -quad ell m) 0 (-(rotateVec (star q) ![0, 0, k])) u, .tuple (.fin 0) (.fin 0) (.fin 0)) := by
  obtain ⟨map2salm, hE⟩ : ∃ map2salm, Exact map2salm := Verif.Props.GridMultiply.exact_exists
  obtain ⟨spline, hs⟩ : ∃ spline, ConstSpline spline := ⟨fun _ y _ => y.headD 0, fun t c x h => by
    obtain ⟨n, hn⟩ : ∃ n, t.length = n + 1 := ⟨t.length - 1, by omega⟩
    rw [hn]; rfl⟩
  have hI : PositiveIntegral (warpCalls map2salm spline).integrate := fun y t hl hp h2 hn => ⟨Verif.Props.AbdFrame.trap_nonneg y t hl hp hn, Verif.Props.AbdFrame.trap_zero y t hl hp h2 hn⟩
  obtain ⟨r, r0, r1⟩ := quad_bounded
  obtain ⟨base, h1, h2⟩ := away_stays (c := warpCalls map2salm spline) (k := k) (τ := |k| + r + 1) (padding := 5 * (|k| + r + 1)) hE hs hI (fun _ => rfl) (warp_warps map2salm spline) r0 (by linarith) (by linarith [abs_nonneg k]) le_rfl quad_high r1
    (Verif.Props.Balance.prod_product 8) (stays_placed map2salm spline k _) (stays_directed map2salm spline k _) (stays_plain map2salm spline k _) hq hz
  exact ⟨_, _, _, base, warp_warps map2salm spline, h1, h2⟩

end Verif.Props.Warped
